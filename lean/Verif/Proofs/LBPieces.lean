import Verif.Proofs.LBFit
import Verif.Spec.Pieces

/-! # Filling lines one piece after the other -/

namespace Verif.Proofs.LB
open Verif.Go Verif.Model Verif.Model.LB Verif.Spec Verif.Spec.LB

theorem openMark_eq (q : List Sym) : openMark q = if markFirst q then 1 else 0 := by
  rcases q with _ | ⟨a, _ | ⟨b, q⟩⟩
  · rfl
  · rfl
  · cases b <;> rfl

theorem openMark_zero {q : List Sym} (h : openMark q = 0) : markFirst q = false := by
  rw [openMark_eq] at h
  cases e : markFirst q with
  | false => rfl
  | true => rw [e] at h; cases h

theorem markFirst_more {cur : List Sym} (h : StartsWithPart cur) (s : Sym) (r : List Sym) :
    markFirst (cur ++ s :: r) = markFirst (cur ++ [s]) := by
  obtain ⟨t, q, rfl⟩ := h
  rcases q with _ | ⟨b, q⟩
  · cases s <;> rfl
  · cases b <;> rfl

/-- Pieces `rs` set after the contents `cur` of the current line. -/
theorem fill_pieces {m : Measure} {W B : Int} {ok : Int → Int → Prop} (h6 : ∀ d, 0 < d → d ≤ B → d ≤ W → ok d 6)
    (hend : ∀ d, 0 < d → d ≤ W → ok d 10000) (hnn : ∀ p, 0 ≤ lineWidth m p) (hh : 0 ≤ m.hyphen) :
    ∀ (rs : List (Sym × List Sym)) (cur : List Sym) (first : Bool), StartsWithPart cur →
      (first = true ∨ markFirst (cur ++ (nextPlace rs).toList) = false) →
      lineWidth m cur + endWidth m (nextPlace rs) ≤ W → PiecesFit m W B rs →
      ∃ ls, Layout (fun _ => []) (Acceptable m W ok) false first (cur ++ joinPieces rs) ls := by
  have he : ∀ s, 0 ≤ endWidth m s := by
    intro s
    unfold endWidth
    split
    · split <;> omega
    · exact le_refl _
  intro rs
  induction rs with
  | nil =>
    intro cur first hc hp hw _
    rw [joinPieces, List.append_nil]
    refine ⟨_, .last _ hc ?_⟩
    have hw' : lineWidth m cur + endWidth m none ≤ W := hw
    unfold Acceptable
    rw [stretch_plain (s := none) hp]
    simp only [endWidth, add_zero, endStretch] at hw' ⊢
    rcases eq_or_lt_of_le hw' with e | e
    · exact Or.inl e
    · exact Or.inr ⟨e, by decide, hend _ (by omega) (by have := hnn cur; omega)⟩
  | cons su rs ih =>
    obtain ⟨s, u⟩ := su
    intro cur first hc hp hw hr
    obtain ⟨r1, r2, r3, r4, r5, r6, r7⟩ := hr
    have hp' : first = true ∨ markFirst (cur ++ [s]) = false := hp
    have hw' : lineWidth m cur + endWidth m (some s) ≤ W := hw
    have e6 : lineWidth m (s :: u) = lineWidth m [s] + lineWidth m u := lineWidth_append m [s] u
    by_cases hfit : lineWidth m (cur ++ s :: u) + endWidth m (nextPlace rs) ≤ W
    · have := ih (cur ++ s :: u) first (by obtain ⟨t, q, rfl⟩ := hc; exact ⟨t, _, rfl⟩) ?_ hfit r7
      · simpa [joinPieces] using this
      · refine hp'.imp id (fun h => ?_)
        rw [List.append_assoc, List.cons_append, markFirst_more hc]
        exact h
    · obtain ⟨ls, hls⟩ := ih u false r3 (Or.inr (openMark_zero r4)) r5 r7
      have hst : startLine (u ++ joinPieces rs) = u ++ joinPieces rs := by
        obtain ⟨t, q, rfl⟩ := r3; rfl
      refine ⟨_, .brk cur s [] hc r1 (Or.inl rfl) ?_ (by rw [hst]; exact hls)⟩
      have hes : endStretch m (some s) = 6 := by
        cases s <;> simp [endStretch, r2]
      unfold Acceptable
      rw [stretch_plain (by exact hp'), hes]
      rw [lineWidth_append] at hfit
      rcases eq_or_lt_of_le hw' with e | e
      · exact Or.inl e
      · refine Or.inr ⟨e, by decide, h6 _ (by omega) (by omega) ?_⟩
        have := hnn cur
        have := he (some s)
        omega

/-! ## Where lines end -/

/-- Two parts with a place between them: they are on the same line, or the line ends at this place. -/
theorem layout_pair {hy : Sym → List Rune} {P : Bool → List Sym → Option Sym → Prop} {first : Bool} {ss : List Sym}
    {ls : List Line} (h : Layout hy P false first ss ls) (t q : List Rune) (x : Sym)
    (ht : [.part t, x, .part q] <:+: ss) :
    ∃ p, ∃ f s, P f p s ∧ ([.part t, x, .part q] <:+: p ∨ (.part t ∈ p ∧ s = some x)) := by
  induction h with
  | blankLine h => cases h
  | lastBlank h => cases h
  | blankAfter _ h => cases h
  | last p _ h => exact ⟨p, _, _, h, Or.inl ht⟩
  | @brk first p s y rest lines a b c d e ih =>
    obtain ⟨u, v, huv⟩ := ht
    rw [List.append_assoc] at huv
    have hst : ∀ r : List Sym, [.part t, x, .part q] <:+: r → [.part t, x, .part q] <:+: startLine r := by
      intro r
      induction r with
      | nil => intro h; exact h
      | cons z r ih =>
        intro h
        cases z with
        | part _ => exact h
        | _ =>
          refine ih ?_
          rcases List.infix_cons_iff.mp h with h | h
          · obtain ⟨w, hw⟩ := h
            cases hw
          · exact h
    rcases List.append_eq_append_iff.mp huv with ⟨a', h1, h2⟩ | ⟨c', h1, h2⟩
    · -- the pair starts in the line or at its end
      rcases a' with _ | ⟨a1, _ | ⟨a2, _ | ⟨a3, a4⟩⟩⟩
      · simp only [List.nil_append, List.cons_append, List.cons.injEq] at h2
        exact absurd h2.1.symm (b t)
      · simp only [List.cons_append, List.nil_append, List.cons.injEq] at h2
        obtain ⟨rfl, rfl, _⟩ := h2
        exact ⟨p, _, _, d, Or.inr ⟨by rw [h1]; simp, rfl⟩⟩
      · simp only [List.cons_append, List.nil_append, List.cons.injEq] at h2
        exact absurd h2.2.2.1.symm (b q)
      · simp only [List.cons_append, List.nil_append, List.cons.injEq] at h2
        obtain ⟨rfl, rfl, rfl, _⟩ := h2
        exact ⟨p, _, _, d, Or.inl ⟨u, a4, by rw [h1]; simp⟩⟩
    · rcases c' with _ | ⟨c1, c2⟩
      · simp only [List.nil_append, List.cons_append, List.cons.injEq] at h2
        exact absurd h2.1 (b t)
      · simp only [List.cons_append, List.cons.injEq] at h2
        obtain ⟨_, h2⟩ := h2
        exact ih (hst rest ⟨c2, v, by rw [h2]; simp⟩)

/-- A piece and its hyphen, when all pieces are at least as wide as a hyphen. -/
theorem piece_hyphen {m : Measure} {W : Int} {ok : Int → Int → Prop} {ss : List Sym} (h1 : ∀ t, 0 ≤ m.text t)
    (h2 : 0 ≤ m.space) (h3 : 0 ≤ m.hyphen) (hh : m.addHyphens = true) {t q : List Rune} (hq : m.hyphen ≤ m.text q)
    (ht : [.part t, .soft, .part q] <:+: ss) (hs : Settable m W ok ss) : m.text t + m.hyphen ≤ W := by
  obtain ⟨ls, hl⟩ := hs
  obtain ⟨p, f, s, ha, hp⟩ := layout_pair hl t q .soft ht
  have he : 0 ≤ endWidth m s := by
    unfold endWidth
    split
    · split <;> omega
    · exact le_refl _
  have hnn : ∀ p, 0 ≤ lineWidth m p := by
    intro p
    induction p with
    | nil => exact le_refl _
    | cons s p ih => cases s <;> simp only [lineWidth] <;> first | exact ih | (have := h1 ‹_›; omega)
  have hle : lineWidth m p + endWidth m s ≤ W := by
    rcases ha with e | ⟨e, _⟩ <;> omega
  rcases hp with ⟨u, v, rfl⟩ | ⟨hp, rfl⟩
  · rw [lineWidth_append, lineWidth_append] at hle
    have := hnn u
    have := hnn v
    simp only [lineWidth] at hle
    omega
  · have := part_width h1 h2 p t hp
    simp only [endWidth, hh, if_true] at hle
    omega

/-! ## Words without marks -/

/-- The symbols of pieces after the first. -/
theorem intersperse_pieces (p : List Rune) (qs : List (List Rune)) :
    ((p :: qs).map Sym.part).intersperse .soft = .part p :: joinPieces (qs.map (fun q => (.soft, [.part q]))) := by
  induction qs generalizing p with
  | nil => rfl
  | cons q qs ih =>
    have := ih q
    simp only [List.map_cons, joinPieces, List.intersperse_cons_cons, List.cons_append, List.nil_append] at this ⊢
    rw [this]

theorem joinPieces_append (a b : List (Sym × List Sym)) : joinPieces (a ++ b) = joinPieces a ++ joinPieces b := by
  induction a with
  | nil => rfl
  | cons x a ih => obtain ⟨s, u⟩ := x; simp [joinPieces, ih]

/-- The pieces of words but the first of the paragraph. -/
def wordPieces (f : List Rune → List (List Rune)) : List (List Rune) → List (Sym × List Sym)
  | [] => []
  | w :: ws => (match f w with
    | [] => []
    | p :: qs => (.gap, [.part p]) :: qs.map (fun q => (.soft, [.part q]))) ++ wordPieces f ws

/-- Words whose symbols are their pieces. -/
structure InPieces (sp : Splitter) (f : List Rune → List (List Rune)) (w : List Rune) : Prop where
  ne : f w ≠ []
  syms : tokenSyms sp w = ((f w).map Sym.part).intersperse .soft

theorem para_pieces {sp : Splitter} {f : List Rune → List (List Rune)} :
    ∀ (ws : List (List Rune)) (w p : List Rune) (qs : List (List Rune)), (∀ x ∈ w :: ws, InPieces sp f x) → f w = p :: qs →
      paraSyms sp (w :: ws) = [.part p] ++ joinPieces (qs.map (fun q => (.soft, [.part q])) ++ wordPieces f ws) := by
  intro ws
  induction ws with
  | nil =>
    intro w p qs h hw
    rw [paraSyms, (h w (by simp)).syms, hw, intersperse_pieces, wordPieces, List.append_nil]
    rfl
  | cons v vs ih =>
    intro w p qs h hw
    obtain ⟨p', qs', hv⟩ := List.exists_cons_of_ne_nil (h v (by simp)).ne
    have := ih v p' qs' (fun x hx => h x (by simp at hx ⊢; tauto)) hv
    rw [paraSyms, (h w (by simp)).syms, hw, intersperse_pieces, this, joinPieces_append, wordPieces, hv]
    · simp [joinPieces, joinPieces_append]
    · intro e; cases e

theorem next_cons (x : Sym × List Sym) (r : List (Sym × List Sym)) : nextPlace (x :: r) = some x.1 := rfl

/-- The pieces of a word, before other words. -/
theorem fit_soft {m : Measure} {W B : Int} (hhy : 0 ≤ m.hyphen) (hsp : 0 ≤ m.space)
    (rs : List (Sym × List Sym))
    (hrs : PiecesFit m W B rs) (hn : nextPlace rs = none ∨ nextPlace rs = some .gap) :
    ∀ (qs : List (List Rune)), (qs ≠ [] → m.addHyphens = true) → (∀ q ∈ qs, m.text q ≤ W ∧ m.text q + m.space + m.hyphen ≤ B + 1) →
      (∀ a p q b, qs = a ++ p :: q :: b → m.text p + m.hyphen ≤ W) →
      PiecesFit m W B (qs.map (fun q => (.soft, [.part q])) ++ rs) := by
  intro qs
  induction qs with
  | nil => intro _ _ _; exact hrs
  | cons q qs ih =>
    intro hh h1 h2
    replace hh := hh (by simp)
    have ih' := ih (fun _ => hh) (fun x hx => h1 x (by simp [hx])) (fun a p q' b e => h2 (q :: a) p q' b (by rw [e]; rfl))
    obtain ⟨g1, g2⟩ := h1 q (by simp)
    rw [List.map_cons, List.cons_append]
    cases qs with
    | nil =>
      have e0 : endWidth m (nextPlace rs) = 0 := by rcases hn with e | e <;> rw [e] <;> rfl
      refine ⟨by simp, fun _ => hh, ⟨q, [], rfl⟩, ?_, ?_, ?_, ih'⟩
      · show openMark ([.part q] ++ (nextPlace rs).toList) = 0
        rcases hn with e | e <;> rw [e] <;> rfl
      · show lineWidth m [.part q] + endWidth m (nextPlace rs) ≤ W
        rw [e0]; simp only [lineWidth]; omega
      · show lineWidth m [.soft, .part q] + endWidth m (nextPlace rs) - endWidth m (some .soft) ≤ B + 1
        rw [e0]; simp only [lineWidth, endWidth, hh, if_true]; omega
    | cons q' qs =>
      have hy : endWidth m (some .soft) = m.hyphen := by simp [endWidth, hh]
      refine ⟨by simp, fun _ => hh, ⟨q, [], rfl⟩, rfl, ?_, ?_, ih'⟩
      · show lineWidth m [.part q] + endWidth m (some .soft) ≤ W
        rw [hy]; have := h2 [] q q' qs rfl; simp only [lineWidth]; omega
      · show lineWidth m [.soft, .part q] + endWidth m (some .soft) - endWidth m (some .soft) ≤ B + 1
        rw [hy]; simp only [lineWidth]; omega

theorem next_wordPieces {f : List Rune → List (List Rune)} :
    ∀ ws : List (List Rune), (∀ w ∈ ws, f w ≠ []) → nextPlace (wordPieces f ws) = none ∨ nextPlace (wordPieces f ws) = some .gap := by
  intro ws h
  cases ws with
  | nil => exact Or.inl rfl
  | cons w ws =>
    obtain ⟨p, qs, e⟩ := List.exists_cons_of_ne_nil (h w (by simp))
    right
    rw [wordPieces, e]; rfl

theorem fit_words {m : Measure} {W B : Int} (hhy : 0 ≤ m.hyphen) (hsp : 0 ≤ m.space)
    {f : List Rune → List (List Rune)} :
    ∀ ws : List (List Rune), (∀ w ∈ ws, f w ≠ []) →
      (∀ w ∈ ws, ∀ p q b, f w = p :: q :: b → m.addHyphens = true) →
      (∀ w ∈ ws, ∀ q ∈ f w, m.text q ≤ W ∧ m.text q + m.space + m.hyphen ≤ B + 1) →
      (∀ w ∈ ws, ∀ a p q b, f w = a ++ p :: q :: b → m.text p + m.hyphen ≤ W) →
      PiecesFit m W B (wordPieces f ws) := by
  intro ws
  induction ws with
  | nil => intro _ _ _ _; exact trivial
  | cons w ws ih =>
    intro h0 hh h1 h2
    have ih' := ih (fun x hx => h0 x (by simp [hx])) (fun x hx => hh x (by simp [hx])) (fun x hx => h1 x (by simp [hx])) (fun x hx => h2 x (by simp [hx]))
    have hn := next_wordPieces ws (fun x hx => h0 x (by simp [hx]))
    obtain ⟨p, qs, e⟩ := List.exists_cons_of_ne_nil (h0 w (by simp))
    rw [wordPieces, e]
    simp only [List.cons_append]
    have hh' : qs ≠ [] → m.addHyphens = true := by
      intro hq
      obtain ⟨q, b, rfl⟩ := List.exists_cons_of_ne_nil hq
      exact hh w (by simp) p q b e
    have hs := fit_soft hhy hsp (wordPieces f ws) ih' hn qs hh'
      (fun q hq => h1 w (by simp) q (by rw [e]; simp [hq]))
      (fun a x y b e' => h2 w (by simp) (p :: a) x y b (by rw [e, e']; rfl))
    obtain ⟨g1, g2⟩ := h1 w (by simp) p (by rw [e]; simp)
    cases qs with
    | nil =>
      have e0 : endWidth m (nextPlace (wordPieces f ws)) = 0 := by rcases hn with e | e <;> rw [e] <;> rfl
      refine ⟨by simp, by simp, ⟨p, [], rfl⟩, ?_, ?_, ?_, hs⟩
      · show openMark ([.part p] ++ (nextPlace (wordPieces f ws)).toList) = 0
        rcases hn with e | e <;> rw [e] <;> rfl
      · show lineWidth m [.part p] + endWidth m (nextPlace (wordPieces f ws)) ≤ W
        rw [e0]; simp only [lineWidth]; omega
      · show lineWidth m [.gap, .part p] + endWidth m (nextPlace (wordPieces f ws)) - endWidth m (some .gap) ≤ B + 1
        rw [e0]; simp only [lineWidth, endWidth]; omega
    | cons q qs =>
      have hy : endWidth m (some .soft) = m.hyphen := by simp [endWidth, hh' (by simp)]
      refine ⟨by simp, by simp, ⟨p, [], rfl⟩, rfl, ?_, ?_, hs⟩
      · show lineWidth m [.part p] + endWidth m (some .soft) ≤ W
        rw [hy]; have := h2 w (by simp) [] p q qs e; simp only [lineWidth]; omega
      · show lineWidth m [.gap, .part p] + endWidth m (some .soft) - endWidth m (some .gap) ≤ B + 1
        rw [hy]; simp only [lineWidth, endWidth]; omega

theorem part_of_pieces {sp : Splitter} {f : List Rune → List (List Rune)} {w : List Rune} (h : InPieces sp f w) :
    (∀ p ∈ f w, .part p ∈ tokenSyms sp w) ∧
      ∀ a p q b, f w = a ++ p :: q :: b → [.part p, .soft, .part q] <:+: tokenSyms sp w := by
  rw [h.syms]
  constructor
  · intro p hp
    have : ∀ l : List (List Rune), p ∈ l → Sym.part p ∈ (l.map Sym.part).intersperse .soft := by
      intro l
      induction l with
      | nil => intro h; cases h
      | cons x l ih =>
        intro h
        cases l with
        | nil => simpa using h
        | cons y l =>
          rw [List.map_cons, List.map_cons, List.intersperse_cons_cons]
          rcases List.mem_cons.mp h with rfl | h
          · simp
          · exact List.mem_cons_of_mem _ (List.mem_cons_of_mem _ (ih h))
    exact this _ hp
  · intro a p q b e
    rw [e]
    clear e h
    induction a with
    | nil => exact ⟨[], (((q :: b).map Sym.part).intersperse .soft).tail, by cases b <;> simp⟩
    | cons x a ih =>
      obtain ⟨y, z, hy⟩ : ∃ y z, a ++ p :: q :: b = y :: z := List.exists_cons_of_ne_nil (by simp)
      rw [List.cons_append, hy, List.map_cons, List.map_cons, List.intersperse_cons_cons]
      rw [hy, List.map_cons] at ih
      exact (ih.trans (List.suffix_cons _ _).isInfix).trans (List.suffix_cons _ _).isInfix

theorem token_infix {sp : Splitter} (ws : List (List Rune)) (w : List Rune) (h : w ∈ ws) :
    tokenSyms sp w <:+: paraSyms sp ws := by
  induction ws with
  | nil => cases h
  | cons v vs ih =>
    cases vs with
    | nil => rw [List.mem_singleton] at h; subst h; exact List.infix_refl _
    | cons x xs =>
      rw [paraSyms]
      · rcases List.mem_cons.mp h with rfl | h
        · exact (List.prefix_append _ _).isInfix
        · exact (ih h).trans ((List.suffix_cons _ _).trans (List.suffix_append _ _)).isInfix
      · intro e; cases e

end Verif.Proofs.LB
