import Verif.Proofs.LBText
import Verif.Proofs.LBNum
import Verif.Spec.Linebreak

/-! # Paragraphs that can be set

Filling lines one word after the other, and what happens to a setting when words get more places to break. -/

namespace Verif.Proofs.LB
open Verif.Go Verif.Model Verif.Model.LB Verif.Spec Verif.Spec.LB

/-- A weaker condition on lines. -/
theorem layout_mono {hy : Sym → List Rune} {P Q : Bool → List Sym → Option Sym → Prop} {blank first : Bool} {ss : List Sym}
    {ls : List Line} (hPQ : ∀ f p s, P f p s → Q f p s) (h : Layout hy P blank first ss ls) : Layout hy Q blank first ss ls := by
  induction h with
  | blankLine h _ ih => exact .blankLine h ih
  | lastBlank h => exact .lastBlank h
  | blankAfter p h h1 h2 _ ih => exact .blankAfter p h h1 (hPQ _ _ _ h2) ih
  | last p h1 h2 => exact .last p h1 (hPQ _ _ _ h2)
  | brk p s x h1 h2 h3 h4 _ ih => exact .brk p s x h1 h2 h3 (hPQ _ _ _ h4) ih

theorem settable_mono {m : Measure} {W : Int} {ok ok' : Int → Int → Prop} {ss : List Sym}
    (h : ∀ d s, ok d s → ok' d s) (hs : Settable m W ok ss) : Settable m W ok' ss := by
  obtain ⟨ls, hl⟩ := hs
  refine ⟨ls, layout_mono ?_ hl⟩
  rintro f p s (e | ⟨h1, h2, h3⟩)
  · exact Or.inl e
  · exact Or.inr ⟨h1, h2, h _ _ h3⟩

/-- Each part of the paragraph is on some line. -/
theorem layout_part {hy : Sym → List Rune} {P : Bool → List Sym → Option Sym → Prop} {first : Bool} {ss : List Sym}
    {ls : List Line} (h : Layout hy P false first ss ls) (t : List Rune) (ht : .part t ∈ ss) :
    ∃ p, ∃ f s, .part t ∈ p ∧ P f p s := by
  induction h with
  | blankLine h => cases h
  | lastBlank h => cases h
  | blankAfter _ h => cases h
  | last p _ h => exact ⟨p, _, _, ht, h⟩
  | @brk first p s x rest lines a b c d e ih =>
    rcases List.mem_append.mp ht with h | h
    · exact ⟨p, _, _, h, d⟩
    · refine ih ?_
      have hr : .part t ∈ rest := by
        rcases List.mem_cons.mp h with h | h
        · exact absurd h.symm (b t)
        · exact h
      have : ∀ r : List Sym, .part t ∈ r → .part t ∈ startLine r := by
        intro r
        induction r with
        | nil => simp
        | cons q r ih => cases q <;> simp [startLine] <;> tauto
      exact this rest hr

theorem part_width {m : Measure} (h1 : ∀ t, 0 ≤ m.text t) (h2 : 0 ≤ m.space) (p : List Sym) (t : List Rune)
    (h : .part t ∈ p) : m.text t ≤ lineWidth m p := by
  have hnn : ∀ p, 0 ≤ lineWidth m p := by
    intro p
    induction p with
    | nil => exact le_refl _
    | cons s p ih => cases s <;> simp only [lineWidth] <;> first | exact ih | (have := h1 ‹_›; omega) | omega
  induction p with
  | nil => cases h
  | cons s p ih =>
    rcases List.mem_cons.mp h with rfl | h
    · simp only [lineWidth]; have := hnn p; omega
    · have := ih h
      cases s <;> simp only [lineWidth] <;> first | exact this | (have := h1 ‹_›; omega) | omega

/-- A part wider than the lines. -/
theorem too_wide {m : Measure} {W : Int} {ok : Int → Int → Prop} {ss : List Sym} (h1 : ∀ t, 0 ≤ m.text t)
    (h2 : 0 ≤ m.space) (h3 : 0 ≤ m.hyphen) {t : List Rune} (ht : .part t ∈ ss) (hw : W < m.text t) :
    ¬ Settable m W ok ss := by
  rintro ⟨ls, hl⟩
  obtain ⟨p, f, s, hp, ha⟩ := layout_part hl t ht
  have hle := part_width h1 h2 p t hp
  have he : 0 ≤ endWidth m s := by
    unfold endWidth
    split
    · split <;> omega
    · exact le_refl _
  rcases ha with e | ⟨e, _⟩ <;> omega

/-! ## Filling lines -/

/-- Symbols of a line that starts with a mark or a hyphen. -/
def markFirst : List Sym → Bool
  | _ :: .mark :: _ => true
  | _ :: .hard :: _ => true
  | _ => false

/-- The stretch of the end of a line. -/
def endStretch (m : Measure) : Option Sym → Int
  | none => 10000
  | some .soft => if m.addHyphens then 6 else 0
  | some _ => 6

theorem stretch_split (m : Measure) (first : Bool) (p : List Sym) (s : Option Sym) :
    lineStretch m first p s = endStretch m s -
      (if first then 0 else if markFirst (p ++ s.toList) then 6 else 0) := by
  have e : ∀ q : List Sym, (match q with
      | _ :: .mark :: _ => (6 : Int)
      | _ :: .hard :: _ => 6
      | _ => 0) = if markFirst q then 6 else 0 := by
    intro q
    rcases q with _ | ⟨a, _ | ⟨b, q⟩⟩
    · rfl
    · rfl
    · cases b <;> rfl
  unfold lineStretch
  rw [← e]
  rfl

theorem stretch_plain {m : Measure} {first : Bool} {p : List Sym} {s : Option Sym}
    (h : first = true ∨ markFirst (p ++ s.toList) = false) : lineStretch m first p s = endStretch m s := by
  rw [stretch_split]
  rcases h with h | h <;> simp [h]

theorem para_append (sp : Splitter) (a b : List (List Rune)) (ha : a ≠ []) (hb : b ≠ []) :
    paraSyms sp (a ++ b) = paraSyms sp a ++ .gap :: paraSyms sp b := by
  induction a with
  | nil => exact absurd rfl ha
  | cons t a ih =>
    cases a with
    | nil =>
      obtain ⟨u, us, rfl⟩ := List.exists_cons_of_ne_nil hb
      rfl
    | cons v vs =>
      have := ih (by simp)
      simp only [List.cons_append] at this ⊢
      simp only [paraSyms, this, List.append_assoc, List.cons_append]

/-- A word starts with neither a mark nor a hyphen. -/
def PlainStart (sp : Splitter) (w : List Rune) : Prop := markFirst (tokenSyms sp w) = false

variable {sp : Splitter} (hl : sp.Lossless)
include hl

theorem markFirst_para (w : List Rune) (hw : w ≠ []) (hp : PlainStart sp w) (ws : List (List Rune)) (s : Option Sym)
    (hs : s = none ∨ s = some .gap) : markFirst (paraSyms sp (w :: ws) ++ s.toList) = false := by
  obtain ⟨h, _⟩ := token_token hl w hw
  have key : ∀ tail : List Sym, (tail = [] ∨ ∃ r, tail = .gap :: r) → markFirst (tokenSyms sp w ++ tail) = false := by
    intro tail ht
    unfold PlainStart at hp
    cases e : tokenSyms sp w with
    | nil => exact absurd e h.ne
    | cons x xs =>
      rw [e] at hp
      cases xs with
      | nil => rcases ht with rfl | ⟨r, rfl⟩ <;> rfl
      | cons y ys => cases y <;> simp_all [markFirst]
  cases ws with
  | nil =>
    simp only [paraSyms]
    refine key _ ?_
    rcases hs with rfl | rfl <;> simp
  | cons v vs =>
    simp only [paraSyms, List.append_assoc, List.cons_append]
    exact key _ (Or.inr ⟨_, rfl⟩)

/-- Words `rs` set after the words `cur` of the current line. -/
theorem fill {m : Measure} {W B : Int} {ok : Int → Int → Prop} (h6 : ∀ d, 0 < d → d ≤ B → d ≤ W → ok d 6)
    (hend : ∀ d, 0 < d → d ≤ W → ok d 10000) (hnn : ∀ p, 0 ≤ lineWidth m p) :
    ∀ (rs cur : List (List Rune)) (first : Bool),
      (∀ w ∈ cur ++ rs, w ≠ []) → cur ≠ [] → (first = true ∨ ∀ w ∈ cur.head?, PlainStart sp w) →
      lineWidth m (paraSyms sp cur) ≤ W →
      (∀ w ∈ rs, PlainStart sp w ∧ lineWidth m (tokenSyms sp w) ≤ W ∧ lineWidth m (tokenSyms sp w) + m.space ≤ B + 1) →
      ∃ ls, Layout (fun _ => []) (Acceptable m W ok) false first (paraSyms sp (cur ++ rs)) ls := by
  intro rs
  induction rs with
  | nil =>
    intro cur first hne hc hp hw _
    rw [List.append_nil]
    obtain ⟨w, ws, rfl⟩ := List.exists_cons_of_ne_nil hc
    have hwne := hne w (by simp)
    refine ⟨_, .last _ (para_starts hl w hwne ws) ?_⟩
    unfold Acceptable
    have hm : first = true ∨ markFirst (paraSyms sp (w :: ws) ++ Option.toList none) = false :=
      hp.imp id (fun h => markFirst_para hl w hwne (h w (by simp)) ws none (Or.inl rfl))
    rw [stretch_plain hm]
    simp only [endWidth, add_zero, endStretch]
    rcases eq_or_lt_of_le hw with e | e
    · exact Or.inl e
    · exact Or.inr ⟨e, by decide, hend _ (by omega) (by have := hnn (paraSyms sp (w :: ws)); omega)⟩
  | cons r rs ih =>
    intro cur first hne hc hp hw hr
    have hr0 := hr r (by simp)
    have hrne := hne r (by simp)
    by_cases hfit : lineWidth m (paraSyms sp (cur ++ [r])) ≤ W
    · have := ih (cur ++ [r]) first (by intro w hw; exact hne w (by simp at hw ⊢; tauto)) (by simp) ?_ hfit
        (fun w hw => hr w (by simp [hw]))
      · simpa using this
      · refine hp.imp id (fun h w hw => h w ?_)
        obtain ⟨a, as, rfl⟩ := List.exists_cons_of_ne_nil hc
        simpa using hw
    · obtain ⟨ls, hls⟩ := ih [r] false (by intro w hw; exact hne w (by simp at hw ⊢; tauto)) (by simp)
        (Or.inr (by simpa using hr0.1)) (by simpa [paraSyms] using hr0.2.1) (fun w hw => hr w (by simp [hw]))
      rw [para_append sp cur (r :: rs) hc (by simp)]
      obtain ⟨w, ws, rfl⟩ := List.exists_cons_of_ne_nil hc
      have hwne := hne w (by simp)
      have hst : startLine (paraSyms sp (r :: rs)) = paraSyms sp (r :: rs) := by
        obtain ⟨t, q, e⟩ := para_starts hl r hrne rs
        rw [e]; rfl
      refine ⟨_, .brk _ .gap [] (para_starts hl w hwne ws) (by simp) (Or.inl rfl) ?_ (by rw [hst]; exact hls)⟩
      unfold Acceptable
      have hm : first = true ∨ markFirst (paraSyms sp (w :: ws) ++ Option.toList (some .gap)) = false :=
        hp.imp id (fun h => markFirst_para hl w hwne (h w (by simp)) ws (some .gap) (Or.inr rfl))
      rw [stretch_plain hm]
      simp only [endWidth, add_zero, endStretch]
      rw [para_append sp (w :: ws) [r] (by simp) (by simp), lineWidth_append] at hfit
      simp only [lineWidth, paraSyms] at hfit
      rcases eq_or_lt_of_le hw with e | e
      · exact Or.inl e
      · exact Or.inr ⟨e, by decide, h6 _ (by omega) (by have := hr0.2.2; omega) (by have := hnn (paraSyms sp (w :: ws)); omega)⟩

/-! ## More places to break -/

omit hl

/-- What becomes of a part when words may be broken. -/
def finer (sp : Splitter) : Sym → List Sym
  | .part t => if sp.isMark t = true ∨ (t.length : Int) ≤ sp.short then [.part t] else (sp.hyphens t).flatMap (wordSyms sp)
  | s => [s]

/-- The two ways to divide words. -/
structure Breaks (on off : Splitter) : Prop where
  marks : off.marks = on.marks
  isMark : off.isMark = on.isMark
  on : on.breakWords = true
  off : off.breakWords = false

theorem finer_token {on off : Splitter} (hb : Breaks on off) (t : List Rune) :
    tokenSyms on t = (tokenSyms off t).flatMap (finer on) := by
  unfold tokenSyms
  rw [hb.marks, List.flatMap_assoc]
  refine congrArg (fun f => (on.marks t).flatMap f) (funext fun p => ?_)
  unfold chunkSyms
  rw [hb.isMark, hb.on, hb.off]
  cases h : on.isMark p with
  | true => simp [finer, h]
  | false =>
    by_cases h2 : (p.length : Int) ≤ on.short <;> simp [finer, h, h2]

theorem finer_para {on off : Splitter} (hb : Breaks on off) (ts : List (List Rune)) :
    paraSyms on ts = (paraSyms off ts).flatMap (finer on) := by
  induction ts with
  | nil => rfl
  | cons t ts ih =>
    cases ts with
    | nil => exact finer_token hb t
    | cons u us =>
      simp only [paraSyms, List.flatMap_append, List.flatMap_cons, finer_token hb, ih]
      rfl

theorem finer_part (hl : sp.Lossless) (hb : sp.breakWords = true) (t : List Rune) (ht : t ≠ []) :
    ∃ u r, finer sp (.part t) = .part u :: r := by
  have h : Token (finer sp (.part t)) := by
    show Token (if _ then _ else _)
    by_cases h : sp.isMark t = true ∨ (t.length : Int) ≤ sp.short
    · rw [if_pos h]; exact token_part t ht
    · have := (chunk_token hl t ht).1
      unfold chunkSyms at this
      rw [if_neg h]
      rw [if_neg (fun e => h (Or.inl e)), if_neg (by rw [hb]; rintro (e | e); cases e; exact h (Or.inr e))] at this
      exact this
  obtain ⟨x, xs, e⟩ := List.exists_cons_of_ne_nil h.ne
  obtain ⟨u, rfl⟩ := h.head x (by rw [e]; rfl)
  exact ⟨u, xs, e⟩

/-- Symbols of words that are not broken: their parts may be divided without changing widths, and do not
start with a hyphen. -/
structure Whole (sp : Splitter) (m : Measure) (ss : List Sym) : Prop where
  ne : ∀ t, .part t ∈ ss → t ≠ []
  start : ∀ t, .part t ∈ ss → markFirst (finer sp (.part t)) = false
  width : ∀ t, .part t ∈ ss → lineWidth m (finer sp (.part t)) = m.text t
  mark : ∀ t, [.part t, .mark] <:+: ss → sp.isMark t = true
  soft : .soft ∉ ss
  hard : .hard ∉ ss

theorem Whole.infix {sp : Splitter} {m : Measure} {a b : List Sym} (h : Whole sp m b) (hi : a <:+: b) : Whole sp m a :=
  ⟨fun t ht => h.ne t (hi.mem ht), fun t ht => h.start t (hi.mem ht), fun t ht => h.width t (hi.mem ht),
    fun t ht => h.mark t (ht.trans hi), fun hs => h.soft (hi.mem hs), fun hs => h.hard (hi.mem hs)⟩

theorem finer_other (sp : Splitter) (s : Sym) (h : ∀ t, s ≠ .part t) : finer sp s = [s] := by
  cases s with
  | part t => exact absurd rfl (h t)
  | _ => rfl

theorem Whole.width_line {sp : Splitter} {m : Measure} {p : List Sym} (h : Whole sp m p) :
    lineWidth m (p.flatMap (finer sp)) = lineWidth m p := by
  induction p with
  | nil => rfl
  | cons s p ih =>
    have := ih (h.infix ⟨[s], [], by simp⟩)
    rw [List.flatMap_cons, lineWidth_append, this]
    cases s with
    | part t => rw [h.width t (by simp)]; rfl
    | _ => simp [finer, lineWidth]

theorem Whole.markFirst {sp : Splitter} {m : Measure} (hl : sp.Lossless) (hb : sp.breakWords = true) {p : List Sym}
    (h : Whole sp m p) (hp : StartsWithPart p) : markFirst (p.flatMap (finer sp)) = LB.markFirst p := by
  obtain ⟨t, q, rfl⟩ := hp
  have hs := h.start t (by simp)
  obtain ⟨u, r, e⟩ := finer_part hl hb t (h.ne t (by simp))
  rw [List.flatMap_cons]
  cases q with
  | nil => rw [List.flatMap_nil, List.append_nil, hs]; rfl
  | cons x q =>
    by_cases hx : x = .mark
    · subst hx
      have hm := h.mark t ⟨[], q, by simp⟩
      have e1 : finer sp (.part t) = [.part t] := by simp [finer, hm]
      rw [e1]; rfl
    · have hr : LB.markFirst (.part t :: x :: q) = false := by
        cases x with
        | mark => exact absurd rfl hx
        | hard => exact absurd (by simp) h.hard
        | _ => rfl
      rw [hr]
      rw [e] at hs ⊢
      cases r with
      | cons y r => cases y <;> simp_all [LB.markFirst]
      | nil =>
        have : ∀ y ∈ ((x :: q).flatMap (finer sp)).head?, y ≠ .mark ∧ y ≠ .hard := by
          cases x with
          | mark => exact absurd rfl hx
          | hard => exact absurd (by simp) h.hard
          | gap => simp [finer]
          | soft => simp [finer]
          | part v =>
            obtain ⟨u', r', e'⟩ := finer_part hl hb v (h.ne v (by simp))
            simp [List.flatMap_cons, e']
        cases e2 : (x :: q).flatMap (finer sp) with
        | nil => rfl
        | cons y ys =>
          rw [e2] at this
          cases y <;> simp_all [LB.markFirst]

theorem startLine_infix (r : List Sym) : startLine r <:+: r := by
  induction r with
  | nil => exact List.infix_rfl
  | cons q r ih =>
    cases q with
    | part t => exact List.infix_rfl
    | _ => exact ih.trans ⟨[_], [], by simp; rfl⟩

theorem startLine_finer {sp : Splitter} {m : Measure} (hl : sp.Lossless) (hb : sp.breakWords = true) {r : List Sym}
    (h : Whole sp m r) : startLine (r.flatMap (finer sp)) = (startLine r).flatMap (finer sp) := by
  induction r with
  | nil => rfl
  | cons q r ih =>
    have := ih (h.infix ⟨[q], [], by simp⟩)
    cases q with
    | part t =>
      obtain ⟨u, r', e⟩ := finer_part hl hb t (h.ne t (by simp))
      simp only [startLine, List.flatMap_cons, e]
      rfl
    | _ => simpa [finer, startLine] using this

/-- **Breaking words keeps settings.** -/
theorem layout_finer {sp : Splitter} (hl : sp.Lossless) (hb : sp.breakWords = true) {m m' : Measure} {W : Int}
    {ok : Int → Int → Prop} (hm1 : m'.text = m.text) (hm2 : m'.space = m.space) {hy : Sym → List Rune} {first : Bool}
    {ss : List Sym} {ls : List Line} (h : Layout hy (Acceptable m W ok) false first ss ls) (hw : Whole sp m ss) :
    ∃ ls', Layout hy (Acceptable m' W ok) false first (ss.flatMap (finer sp)) ls' := by
  have hwidth : ∀ p, lineWidth m' p = lineWidth m p := by
    intro p
    induction p with
    | nil => rfl
    | cons s p ih => cases s <;> simp [lineWidth, hm1, hm2, ih]
  have hstart : ∀ p, Whole sp m p → StartsWithPart p → StartsWithPart (p.flatMap (finer sp)) := by
    rintro p hp ⟨t, q, rfl⟩
    obtain ⟨u, r, e⟩ := finer_part hl hb t (hp.ne t (by simp))
    exact ⟨u, r ++ q.flatMap (finer sp), by rw [List.flatMap_cons, e]; rfl⟩
  have hacc : ∀ f p (s : Option Sym), Whole sp m (p ++ s.toList) → StartsWithPart p → (∀ x ∈ s, ∀ t, x ≠ .part t) →
      Acceptable m W ok f p s → Acceptable m' W ok f (p.flatMap (finer sp)) s := by
    intro f p s hp hps hnp ha
    have h1 : lineWidth m' (p.flatMap (finer sp)) = lineWidth m p := by
      rw [hwidth, (hp.infix ⟨[], s.toList, by simp⟩).width_line]
    have hns : s ≠ some .soft := by
      rintro rfl
      exact hp.soft (by simp)
    have h2 : endWidth m' s = endWidth m s := by
      cases s with
      | none => rfl
      | some x => cases x <;> first | rfl | exact absurd rfl hns
    have h3 : endStretch m' s = endStretch m s := by
      cases s with
      | none => rfl
      | some x => cases x <;> first | rfl | exact absurd rfl hns
    have hps' : StartsWithPart (p ++ s.toList) := by
      obtain ⟨t, q, rfl⟩ := hps
      exact ⟨t, q ++ s.toList, rfl⟩
    have h4 : markFirst (p.flatMap (finer sp) ++ s.toList) = markFirst (p ++ s.toList) := by
      rw [← hp.markFirst hl hb hps', List.flatMap_append]
      cases s with
      | none => rfl
      | some x => simp [finer_other sp x (hnp x rfl)]
    unfold Acceptable at ha ⊢
    rw [h1, h2, stretch_split, h3, h4, ← stretch_split]
    exact ha
  induction h with
  | blankLine h => cases h
  | lastBlank h => cases h
  | blankAfter _ h => cases h
  | last p h1 h2 => exact ⟨_, .last _ (hstart p hw h1) (hacc _ p none (by simpa using hw) h1 (by simp) h2)⟩
  | @brk first p s x rest lines a b c d e ih =>
    have hrest : Whole sp m rest := hw.infix ⟨p ++ [s], [], by simp⟩
    obtain ⟨ls', h'⟩ := ih (hrest.infix (startLine_infix rest))
    rw [List.flatMap_append, List.flatMap_cons, finer_other sp s b]
    refine ⟨_ :: ls', .brk _ s x (hstart p (hw.infix ⟨[], s :: rest, by simp⟩) a) b c
      (hacc _ p (some s) (hw.infix ⟨[], rest, by simp⟩) a (by simpa using b) d) ?_⟩
    · rw [show [].append (rest.flatMap (finer sp)) = rest.flatMap (finer sp) from rfl, startLine_finer hl hb hrest]
      exact h'

end Verif.Proofs.LB
