import Verif.Spec.Layout
import Mathlib.Data.List.Chain

/-! # The text of a layout -/

namespace Verif.Proofs.LB
open Verif.Go Verif.Spec.LB

/-- The contents of a symbol. -/
def symCh : Sym → List Ch
  | .part t => t.map Ch.rune
  | .gap => [.gap]
  | _ => []

/-- The contents of symbols. -/
def chars (s : List Sym) : List Ch := s.flatMap symCh

theorem chars_append (a b : List Sym) : chars (a ++ b) = chars a ++ chars b := by simp [chars]

theorem chars_cons (a : Sym) (b : List Sym) : chars (a :: b) = symCh a ++ chars b := by simp [chars]

theorem chText_append (g : List Rune) (a b : List Ch) : chText g (a ++ b) = chText g a ++ chText g b := by
  induction a with
  | nil => rfl
  | cons x a ih => cases x <;> simp [chText, ih]

theorem chText_runes (g t : List Rune) : chText g (t.map Ch.rune) = t := by
  induction t with
  | nil => rfl
  | cons r t ih => simp [chText, ih]

theorem lineText_chars (g : List Rune) (p : List Sym) : lineText g p = chText g (chars p) := by
  induction p with
  | nil => rfl
  | cons s p ih =>
    rw [chars_cons, chText_append, ← ih]
    cases s <;> simp [lineText, symCh, chText_runes, chText]

/-- The symbols that may follow each other. -/
def Adj (a b : Sym) : Prop :=
  (∃ t, a = .part t) ∨ (∃ t, b = .part t) ∨ ((a = .mark ∨ a = .hard) ∧ b = .gap)

/-- Symbols of a word. -/
structure Token (s : List Sym) : Prop where
  chain : s.IsChain Adj
  ne : s ≠ []
  head : ∀ x ∈ s.head?, ∃ t, x = .part t
  last : ∀ x ∈ s.getLast?, (∃ t, x = .part t) ∨ x = .mark ∨ x = .hard
  full : .part [] ∉ s

theorem Token.append {a b : List Sym} (ha : Token a) (hb : Token b) : Token (a ++ b) := by
  refine ⟨?_, by simp [ha.ne], ?_, ?_, by simp [ha.full, hb.full]⟩
  · rw [List.isChain_append]
    exact ⟨ha.chain, hb.chain, fun x hx y hy => Or.inr (Or.inl (hb.head y hy))⟩
  · intro x hx
    refine ha.head x ?_
    cases a with
    | nil => exact absurd rfl ha.ne
    | cons c a => simpa using hx
  · intro x hx
    refine hb.last x ?_
    rw [List.getLast?_append_of_ne_nil _ hb.ne] at hx
    exact hx

theorem Token.flatMap {α : Type} (f : α → List Sym) (xs : List α) (hne : xs ≠ []) (h : ∀ x ∈ xs, Token (f x)) :
    Token (xs.flatMap f) := by
  induction xs with
  | nil => exact absurd rfl hne
  | cons x xs ih =>
    cases xs with
    | nil => simpa using h x (by simp)
    | cons y ys =>
      rw [List.flatMap_cons]
      exact (h x (by simp)).append (ih (by simp) (fun z hz => h z (by simp [hz])))

theorem token_part (t : List Rune) (h : t ≠ []) : Token [.part t] :=
  ⟨by simp, by simp, by simp, by simp, by simpa using h⟩

theorem token_mark (t : List Rune) (h : t ≠ []) (s : Sym) (hs : s = .mark ∨ s = .hard) : Token [.part t, s] := by
  refine ⟨by simp [Adj], by simp, by simp, ?_, ?_⟩
  · simp only [List.getLast?_cons_cons, List.getLast?_singleton]
    intro x hx
    simp at hx
    subst hx
    exact Or.inr hs
  · rcases hs with rfl | rfl <;> simpa using h

theorem token_intersperse (ps : List (List Rune)) (hne : ps ≠ []) (h : [] ∉ ps) :
    Token ((ps.map Sym.part).intersperse .soft) := by
  induction ps with
  | nil => exact absurd rfl hne
  | cons p ps ih =>
    have hp : p ≠ [] := by rintro rfl; simp at h
    cases ps with
    | nil => exact token_part p hp
    | cons q qs =>
      have hi := ih (by simp) (by intro hc; exact h (by simp [hc]))
      simp only [List.map_cons, List.intersperse_cons_cons] at hi ⊢
      refine ⟨?_, by simp, by simp, ?_, ?_⟩
      · rw [List.isChain_cons_cons]
        refine ⟨Or.inl ⟨p, rfl⟩, ?_⟩
        rw [List.isChain_cons]
        exact ⟨fun y hy => Or.inr (Or.inl (hi.head y hy)), hi.chain⟩
      · intro x hx
        refine hi.last x ?_
        obtain ⟨z, zs, e⟩ := List.exists_cons_of_ne_nil hi.ne
        rw [e] at hx ⊢
        rw [List.getLast?_cons_cons, List.getLast?_cons_cons] at hx
        exact hx
      · have := hi.full
        simp only [List.mem_cons, Sym.part.injEq, reduceCtorEq, false_or, not_or]
        refine ⟨fun e => hp e.symm, ?_⟩
        simpa using this

theorem syms_chars (ps : List (List Rune)) : chars ((ps.map Sym.part).intersperse .soft) = ps.flatten.map Ch.rune := by
  induction ps with
  | nil => rfl
  | cons p ps ih =>
    cases ps with
    | nil => simp [chars, symCh]
    | cons q qs =>
      simp only [List.map_cons, List.intersperse_cons_cons] at ih ⊢
      rw [chars_cons, chars_cons, ih]
      simp [symCh]

theorem flatMap_chars {α : Type} (f : α → List Sym) (c : α → List Rune) (xs : List α)
    (h : ∀ x ∈ xs, chars (f x) = (c x).map Ch.rune) : chars (xs.flatMap f) = (xs.flatMap c).map Ch.rune := by
  induction xs with
  | nil => rfl
  | cons x xs ih =>
    rw [List.flatMap_cons, chars_append, h x (by simp), ih (fun y hy => h y (by simp [hy]))]
    simp

section
variable {sp : Splitter} (hl : sp.Lossless)
include hl

theorem word_token (w : List Rune) (hw : w ≠ []) (hb : sp.breakWords = true) :
    Token (wordSyms sp w) ∧ chars (wordSyms sp w) = w.map Ch.rune := by
  unfold wordSyms
  split
  · exact ⟨token_mark w hw .hard (Or.inr rfl), by simp [chars, symCh]⟩
  · have h := hl.syllables hb w hw
    refine ⟨token_intersperse _ ?_ h.2, ?_⟩
    · intro e; rw [e] at h; exact hw (by simpa using h.1.symm)
    · rw [syms_chars, h.1]

theorem chunk_token (p : List Rune) (hp : p ≠ []) :
    Token (chunkSyms sp p) ∧ chars (chunkSyms sp p) = p.map Ch.rune := by
  unfold chunkSyms
  split
  · exact ⟨token_mark p hp .mark (Or.inl rfl), by simp [chars, symCh]⟩
  · split
    · exact ⟨token_part p hp, by simp [chars, symCh]⟩
    · rename_i h1 h2
      have hb : sp.breakWords = true := by
        cases h : sp.breakWords with
        | true => rfl
        | false => exact absurd (Or.inl h) h2
      have h := hl.hyphens p
      have hne : sp.hyphens p ≠ [] := by
        intro e; rw [e] at h; exact hp (by simpa using h.1.symm)
      have hn : ∀ w ∈ sp.hyphens p, w ≠ [] := by rintro w hw rfl; exact h.2 hw
      refine ⟨Token.flatMap _ _ hne (fun w hw => (word_token hl w (hn w hw) hb).1), ?_⟩
      rw [flatMap_chars _ id _ (fun w hw => (word_token hl w (hn w hw) hb).2)]
      rw [List.flatMap_id, h.1]

theorem token_token (t : List Rune) (ht : t ≠ []) :
    Token (tokenSyms sp t) ∧ chars (tokenSyms sp t) = t.map Ch.rune := by
  unfold tokenSyms
  have h := hl.marks t
  have hne : sp.marks t ≠ [] := by
    intro e; rw [e] at h; exact ht (by simpa using h.1.symm)
  have hn : ∀ w ∈ sp.marks t, w ≠ [] := by rintro w hw rfl; exact h.2 hw
  refine ⟨Token.flatMap _ _ hne (fun w hw => (chunk_token hl w (hn w hw)).1), ?_⟩
  rw [flatMap_chars _ id _ (fun w hw => (chunk_token hl w (hn w hw)).2)]
  rw [List.flatMap_id, h.1]

theorem tokenSyms_nil : tokenSyms sp [] = [] := by
  unfold tokenSyms
  have h := hl.marks []
  have : sp.marks [] = [] := by
    by_contra hne
    obtain ⟨x, xs, e⟩ := List.exists_cons_of_ne_nil hne
    rw [e] at h
    have hx : x = [] := by
      have := h.1; simp at this; exact this.1
    exact h.2 (by simp [hx])
  rw [this]; rfl

/-- The contents of the symbols of a paragraph. -/
theorem para_chars (ts : List (List Rune)) : chars (paraSyms sp ts) = joined ts := by
  have htok : ∀ t, chars (tokenSyms sp t) = t.map Ch.rune := by
    intro t
    by_cases h : t = []
    · subst h; rw [tokenSyms_nil hl]; rfl
    · exact (token_token hl t h).2
  induction ts with
  | nil => rfl
  | cons t ts ih =>
    cases ts with
    | nil => exact htok t
    | cons u us =>
      simp only [paraSyms, joined]
      rw [chars_append, chars_cons, htok, ih]
      rfl

theorem para_full (ts : List (List Rune)) : .part [] ∉ paraSyms sp ts := by
  have htok : ∀ t, .part [] ∉ tokenSyms sp t := by
    intro t
    by_cases h : t = []
    · subst h; rw [tokenSyms_nil hl]; simp
    · exact (token_token hl t h).1.full
  induction ts with
  | nil => simp [paraSyms]
  | cons t ts ih =>
    cases ts with
    | nil => exact htok t
    | cons u us =>
      simp only [paraSyms, List.mem_append, List.mem_cons, reduceCtorEq, false_or, not_or]
      exact ⟨htok t, ih⟩

theorem para_starts (t : List Rune) (ht : t ≠ []) (ts : List (List Rune)) : StartsWithPart (paraSyms sp (t :: ts)) := by
  obtain ⟨h, _⟩ := token_token hl t ht
  obtain ⟨x, xs, e⟩ := List.exists_cons_of_ne_nil h.ne
  obtain ⟨u, hu⟩ := h.head x (by rw [e]; rfl)
  cases ts with
  | nil => exact ⟨u, xs, by simp only [paraSyms]; rw [e, hu]⟩
  | cons v vs => exact ⟨u, xs ++ .gap :: paraSyms sp (v :: vs), by simp only [paraSyms]; rw [e, hu]; rfl⟩

theorem para_chain (ts : List (List Rune)) (hne : ∀ t ∈ ts, t ≠ []) : (paraSyms sp ts).IsChain Adj := by
  induction ts with
  | nil => simp [paraSyms]
  | cons t ts ih =>
    have ht := (token_token hl t (hne t (by simp))).1
    cases ts with
    | nil => exact ht.chain
    | cons u us =>
      simp only [paraSyms]
      rw [List.isChain_append]
      refine ⟨ht.chain, ?_, ?_⟩
      · rw [List.isChain_cons]
        refine ⟨?_, ih (fun v hv => hne v (by simp [hv]))⟩
        intro y hy
        obtain ⟨w, r, e⟩ := para_starts hl u (hne u (by simp)) us
        rw [e] at hy
        simp at hy
        exact Or.inr (Or.inl ⟨w, hy.symm⟩)
      · intro x hx y hy
        simp at hy
        subst hy
        rcases ht.last x hx with h | h
        · exact Or.inl h
        · exact Or.inr (Or.inr ⟨h, rfl⟩)

end

/-- Without blank lines a layout is not empty, and starts with a part of a word. -/
theorem layout_starts {hy : Sym → List Rune} {P : Bool → List Sym → Option Sym → Prop} {first : Bool} {ss : List Sym}
    {lines : List Line} (h : Layout hy P false first ss lines) : StartsWithPart ss := by
  cases h with
  | last p h1 _ => exact h1
  | brk p s _ h1 _ _ _ _ =>
    obtain ⟨t, r, e⟩ := h1
    exact ⟨t, r ++ s :: _, by rw [e]; rfl⟩
  | blankLine h => cases h
  | lastBlank h => cases h
  | blankAfter _ h => cases h

/-- **The text of a layout.** -/
theorem layout_reflow {hy : Sym → List Rune} {P : Bool → List Sym → Option Sym → Prop} {first : Bool} {ss : List Sym}
    {lines : List Line} (h : Layout hy P false first ss lines) (g : List Rune) {atGap : List Rune → Prop}
    {inWord : Rune → List Rune → Prop} (hg0 : atGap []) (hg : ∀ s ∈ ss, s ≠ .soft → (∀ t, s ≠ .part t) → atGap (hy s))
    (hin : ∀ v r s, [.part (v ++ [r]), s] <:+: ss → s ≠ .gap → (∀ t, s ≠ .part t) → inWord r (hy s))
    (hc : ss.IsChain Adj) (hf : .part [] ∉ ss) : Reflow g atGap inWord (chars ss) (lines.map (Line.text g)) := by
  induction h with
  | blankLine h => cases h
  | lastBlank h => cases h
  | blankAfter _ h => cases h
  | last p h1 _ =>
    simp only [List.map_cons, List.map_nil, Line.text, List.append_nil]
    rw [lineText_chars]
    exact .last _
  | @brk first p s x rest lines h1 h2 h3 h4 h5 ih =>
    have hx : s ≠ .soft → atGap x := by
      intro hns
      rcases h3 with e | ⟨_, e⟩
      · rw [e]; exact hg s (by simp) hns h2
      · rw [e]; exact hg0
    have hx' : s ≠ .gap → x = hy s := by
      intro hng
      rcases h3 with e | ⟨e, _⟩
      · exact e
      · exact absurd e hng
    have hst := layout_starts h5
    rw [List.isChain_append] at hc
    obtain ⟨hc1, hc2, hc3⟩ := hc
    simp only [List.map_cons, Line.text]
    rw [lineText_chars, chars_append, chars_cons]
    cases rest with
    | nil => obtain ⟨t, r, e⟩ := hst; simp [startLine] at e
    | cons z r =>
      have hzf : ∀ u, z = .part u → u ≠ [] := by
        rintro u rfl rfl; exact hf (by simp)
      rw [List.isChain_cons_cons] at hc2
      by_cases hz : ∃ u, z = .part u
      · obtain ⟨u, rfl⟩ := hz
        have hi := ih (fun y hy' => hg y (by simp [show startLine (.part u :: r) = .part u :: r from rfl] at hy' ⊢; right; right; exact hy'))
          (fun v r' y hy' => hin v r' y (hy'.trans ⟨p ++ [s], [], by simp [startLine]⟩)) hc2.2 (by intro hm; exact hf (by simp [show startLine (.part u :: r) = .part u :: r from rfl] at hm ⊢; right; right; exact hm))
        rw [show startLine (.part u :: r) = .part u :: r from rfl] at hi
        cases s with
        | part t => exact absurd rfl (h2 t)
        | gap => exact .gap _ x (hx (by simp)) hi
        | _ =>
          all_goals
            obtain ⟨a, u', rfl⟩ := List.exists_cons_of_ne_nil (hzf u rfl)
            obtain ⟨q, y, hq⟩ : ∃ q y, p = q ++ [y] := by
              rcases List.eq_nil_or_concat p with e | ⟨q, y, e⟩
              · obtain ⟨t, r, e'⟩ := h1; rw [e] at e'; cases e'
              · exact ⟨q, y, by rw [e, List.concat_eq_append]⟩
            have := hc3 y (by rw [hq]; simp) _ (by simp; rfl)
            obtain ⟨v, rfl⟩ : ∃ v, y = .part v := by
              rcases this with h | ⟨t, h⟩ | ⟨_, h⟩
              · exact h
              · cases h
              · cases h
            obtain ⟨v', b, hv⟩ : ∃ v' b, v = v' ++ [b] := by
              rcases List.eq_nil_or_concat v with e | ⟨q, y, e⟩
              · exfalso; exact hf (by rw [hq, e]; simp)
              · exact ⟨q, y, by rw [e, List.concat_eq_append]⟩
            have e1 : chars p = chars q ++ v'.map Ch.rune ++ [.rune b] := by
              rw [hq, chars_append, chars_cons, hv]
              simp [symCh, chars]
            have e2 : chars (.part (a :: u') :: r) = .rune a :: (u'.map Ch.rune ++ chars r) := by
              rw [chars_cons]; simp [symCh]
            rw [e2] at hi ⊢
            rw [e1]
            have hxi : inWord b x := by
              rw [hx' (by simp)]
              refine hin v' b _ ⟨q, .part (a :: u') :: r, ?_⟩ (by simp) h2
              rw [hq, hv]; simp
            have := Reflow.inside (g := g) (atGap := atGap) (chars q ++ v'.map Ch.rune) b a x hxi hi
            simpa [symCh] using this
      · have hg : (s = .mark ∨ s = .hard) ∧ z = .gap := by
          rcases hc2.1 with ⟨t, h⟩ | h | h
          · exact absurd h (h2 t)
          · exact absurd h hz
          · exact h
        obtain ⟨hs, rfl⟩ := hg
        cases r with
        | nil => obtain ⟨t, r, e⟩ := hst; simp [startLine] at e
        | cons w r =>
          rw [List.isChain_cons_cons] at hc2
          obtain ⟨u, rfl⟩ : ∃ u, w = .part u := by
            rcases hc2.2.1 with ⟨t, h⟩ | h | ⟨h, _⟩
            · cases h
            · exact h
            · rcases h with h | h <;> cases h
          have hi := ih (fun y hy' => hg y (by simp [startLine] at hy' ⊢; right; right; right; exact hy'))
            (fun v r' y hy' => hin v r' y (hy'.trans ⟨p ++ [s, .gap], [], by simp [startLine]⟩)) hc2.2.2 (by intro hm; exact hf (by simp [startLine] at hm ⊢; right; right; exact hm))
          rw [show startLine (.gap :: .part u :: r) = .part u :: r from rfl] at hi
          have e : symCh s = [] := by rcases hs with rfl | rfl <;> rfl
          rw [e, List.nil_append, chars_cons]
          exact .gap _ x (hx (by rcases hs with rfl | rfl <;> simp)) hi

/-! ## Where marks and hyphens are -/

/-- Marks follow a punctuation mark, hard hyphens an explicit hyphen. -/
def After (sp : Splitter) (a b : Sym) : Prop :=
  (b = .mark → ∃ v, a = .part v ∧ sp.isMark v = true) ∧ (b = .hard → ∃ v, a = .part v ∧ sp.isHyphen v = true)

/-- Symbols in order, that do not start with a mark. -/
def Ordered (sp : Splitter) (s : List Sym) : Prop :=
  s.IsChain (After sp) ∧ ∀ x ∈ s.head?, x ≠ .mark ∧ x ≠ .hard

theorem Ordered.append {sp : Splitter} {a b : List Sym} (ha : Ordered sp a) (hb : Ordered sp b) : Ordered sp (a ++ b) := by
  refine ⟨?_, ?_⟩
  · rw [List.isChain_append]
    refine ⟨ha.1, hb.1, fun x _ y hy => ⟨fun e => absurd e (hb.2 y hy).1, fun e => absurd e (hb.2 y hy).2⟩⟩
  · cases a with
    | nil => exact hb.2
    | cons x a => exact ha.2

theorem Ordered.flatMap {α : Type} {sp : Splitter} (f : α → List Sym) (xs : List α) (h : ∀ x ∈ xs, Ordered sp (f x)) :
    Ordered sp (xs.flatMap f) := by
  induction xs with
  | nil => exact ⟨by simp, by simp⟩
  | cons x xs ih =>
    rw [List.flatMap_cons]
    exact (h x (by simp)).append (ih (fun y hy => h y (by simp [hy])))

theorem ordered_soft (sp : Splitter) (ps : List (List Rune)) : Ordered sp ((ps.map Sym.part).intersperse .soft) := by
  induction ps with
  | nil => exact ⟨by simp, by simp⟩
  | cons p ps ih =>
    cases ps with
    | nil => exact ⟨by simp, by simp⟩
    | cons q qs =>
      simp only [List.map_cons, List.intersperse_cons_cons] at ih ⊢
      have : Ordered sp [.part p, .soft] := ⟨by simp [After], by simp⟩
      exact this.append ih

theorem ordered_token (sp : Splitter) (t : List Rune) : Ordered sp (tokenSyms sp t) := by
  refine Ordered.flatMap _ _ (fun p _ => ?_)
  unfold chunkSyms
  split
  · exact ⟨by simpa [After] using ‹_›, by simp⟩
  · split
    · exact ⟨by simp, by simp⟩
    · refine Ordered.flatMap _ _ (fun w _ => ?_)
      unfold wordSyms
      split
      · exact ⟨by simpa [After] using ‹_›, by simp⟩
      · exact ordered_soft sp _

theorem ordered_para (sp : Splitter) (ts : List (List Rune)) : Ordered sp (paraSyms sp ts) := by
  induction ts with
  | nil => exact ⟨by simp [paraSyms], by simp [paraSyms]⟩
  | cons t ts ih =>
    cases ts with
    | nil => exact ordered_token sp t
    | cons u us =>
      simp only [paraSyms]
      have : Ordered sp [.gap] := ⟨by simp, by simp⟩
      exact (ordered_token sp t).append (this.append ih)

/-- **What comes before a mark or a hard hyphen.** -/
theorem para_after (sp : Splitter) (ts : List (List Rune)) (v : List Rune) (s : Sym)
    (h : [.part v, s] <:+: paraSyms sp ts) : (s = .mark → sp.isMark v = true) ∧ (s = .hard → sp.isHyphen v = true) := by
  have := (ordered_para sp ts).1.infix h
  simp only [List.isChain_cons_cons, After, List.isChain_singleton, and_true] at this
  refine ⟨fun e => ?_, fun e => ?_⟩
  · obtain ⟨w, hw, h⟩ := this.1 e
    cases hw; exact h
  · obtain ⟨w, hw, h⟩ := this.2 e
    cases hw; exact h

/-- Words that may not be broken have no hyphenation points. -/
theorem para_whole (sp : Splitter) (hb : sp.breakWords = false) (ts : List (List Rune)) :
    .soft ∉ paraSyms sp ts ∧ .hard ∉ paraSyms sp ts := by
  have htok : ∀ t, .soft ∉ tokenSyms sp t ∧ .hard ∉ tokenSyms sp t := by
    intro t
    unfold tokenSyms chunkSyms
    simp only [List.mem_flatMap, hb, true_or, if_true]
    constructor <;>
    · rintro ⟨p, _, hp⟩
      split at hp <;> simp at hp
  induction ts with
  | nil => simp [paraSyms]
  | cons t ts ih =>
    cases ts with
    | nil => exact htok t
    | cons u us =>
      simp only [paraSyms, List.mem_append, List.mem_cons, reduceCtorEq, false_or, not_or]
      exact ⟨⟨(htok t).1, ih.1⟩, (htok t).2, ih.2⟩

/-- Every line holds some text. -/
theorem layout_lines {hy : Sym → List Rune} {P : Bool → List Sym → Option Sym → Prop} {first : Bool} {ss : List Sym}
    {lines : List Line} (h : Layout hy P false first ss lines) :
    lines ≠ [] ∧ ∀ x ∈ lines, StartsWithPart x.body ∧ ∀ s ∈ x.body, s ∈ ss := by
  induction h with
  | blankLine h => cases h
  | lastBlank h => cases h
  | blankAfter _ h => cases h
  | last p h1 _ => simpa using h1
  | @brk first p s x rest lines h1 h2 h3 h4 h5 ih =>
    refine ⟨by simp, ?_⟩
    intro y hy
    rcases List.mem_cons.mp hy with rfl | hy
    · exact ⟨h1, fun s hs => by simp [hs]⟩
    · obtain ⟨g1, g2⟩ := ih.2 y hy
      refine ⟨g1, fun s hs => ?_⟩
      have := g2 s hs
      have hsub : ∀ l : List Sym, ∀ s ∈ startLine l, s ∈ l := by
        intro l
        induction l with
        | nil => simp [startLine]
        | cons a l ih => cases a <;> simp [startLine] <;> intro s hs <;> exact Or.inr (ih s hs)
      have := hsub _ _ this
      simp [this]

theorem line_ne_nil {x : Line} {ss : List Sym} (h1 : StartsWithPart x.body) (h2 : ∀ s ∈ x.body, s ∈ ss) (hf : .part [] ∉ ss)
    (g : List Rune) : x.text g ≠ [] := by
  obtain ⟨t, r, e⟩ := h1
  have ht : t ≠ [] := by
    rintro rfl
    exact hf (h2 _ (by rw [e]; simp))
  unfold Line.text
  rw [e]
  simp [lineText, ht]

/-! ## Spaces -/

/-- Gaps are between runes. -/
structure Spaced (cs : List Ch) : Prop where
  chain : cs.IsChain (fun a b => a ≠ .gap ∨ b ≠ .gap)
  head : cs.head? ≠ some .gap
  last : cs.getLast? ≠ some .gap

theorem spaced_words (g : Rune) (n : Nat) : ∀ p : List Ch, p.length ≤ n → Spaced p → p ≠ [] →
    ∃ words : List (List Rune), words ≠ [] ∧ (∀ w ∈ words, w ≠ [] ∧ ∀ r ∈ w, .rune r ∈ p) ∧
      chText [g] p = List.intercalate [g] words := by
  induction n with
  | zero => intro p hn _ hne; simp at hn; exact absurd hn hne
  | succ n ih =>
    intro p hn h hne
    cases p with
    | nil => exact absurd rfl hne
    | cons c p =>
      cases c with
      | gap => exact absurd rfl h.head
      | rune r =>
        cases p with
        | nil => exact ⟨[[r]], by simp, by simp, by simp [chText, List.intercalate]⟩
        | cons d p =>
          have hlast : (d :: p).getLast? ≠ some .gap := by
            have := h.last; rwa [List.getLast?_cons_cons] at this
          cases d with
          | rune r' =>
            obtain ⟨words, h1, h2, h3⟩ := ih (.rune r' :: p) (by simp at hn ⊢; omega)
              ⟨(List.isChain_cons_cons.mp h.chain).2, by simp, hlast⟩ (by simp)
            cases words with
            | nil => exact absurd rfl h1
            | cons w ws =>
              refine ⟨(r :: w) :: ws, by simp, ?_, ?_⟩
              · intro v hv
                rcases List.mem_cons.mp hv with rfl | hv
                · refine ⟨by simp, ?_⟩
                  intro x hx
                  rcases List.mem_cons.mp hx with rfl | hx
                  · simp
                  · have := (h2 w (by simp)).2 x hx
                    exact List.mem_cons_of_mem _ this
                · exact ⟨(h2 v (by simp [hv])).1, fun x hx => List.mem_cons_of_mem _ ((h2 v (by simp [hv])).2 x hx)⟩
              · simp only [chText] at h3 ⊢
                rw [h3]
                cases ws <;> simp [List.intercalate]
          | gap =>
            cases p with
            | nil => simp at hlast
            | cons e p =>
              have hch := List.isChain_cons_cons.mp (List.isChain_cons_cons.mp h.chain).2
              have he : e ≠ .gap := hch.1.elim (fun h => absurd rfl h) id
              have hlast2 : (e :: p).getLast? ≠ some .gap := by rwa [List.getLast?_cons_cons] at hlast
              obtain ⟨words, h1, h2, h3⟩ := ih (e :: p) (by simp at hn ⊢; omega) ⟨hch.2, by simpa using he, hlast2⟩ (by simp)
              refine ⟨[r] :: words, by simp, ?_, ?_⟩
              · intro v hv
                rcases List.mem_cons.mp hv with rfl | hv
                · simp
                · exact ⟨(h2 v hv).1, fun x hx => List.mem_cons_of_mem _ (List.mem_cons_of_mem _ ((h2 v hv).2 x hx))⟩
              · rw [chText, chText, h3]
                cases words with
                | nil => exact absurd rfl h1
                | cons w ws => simp [List.intercalate]

theorem Spaced.runes (t : List Rune) : Spaced (t.map Ch.rune) := by
  refine ⟨?_, ?_, ?_⟩
  · induction t with
    | nil => simp
    | cons r t ih =>
      rw [List.map_cons, List.isChain_cons]
      exact ⟨fun y _ => Or.inl (by simp), ih⟩
  · cases t <;> simp
  · rw [List.getLast?_map]
    cases t.getLast? <;> simp

theorem spaced_joined (ts : List (List Rune)) (hne : ∀ t ∈ ts, t ≠ []) : Spaced (joined ts) := by
  induction ts with
  | nil => exact Spaced.runes []
  | cons t ts ih =>
    have ht := Spaced.runes t
    have htne := hne t (by simp)
    cases ts with
    | nil => exact ht
    | cons u us =>
      have hi := ih (fun v hv => hne v (by simp [hv]))
      have hjne : joined (u :: us) ≠ [] := by
        have := hne u (by simp)
        cases us <;> simp [joined, this]
      simp only [joined]
      refine ⟨?_, ?_, ?_⟩
      · rw [List.isChain_append, List.isChain_cons]
        refine ⟨ht.chain, ⟨?_, hi.chain⟩, ?_⟩
        · intro y hy
          right
          rintro rfl
          exact hi.head hy
        · intro x hx y _
          left
          rintro rfl
          exact ht.last hx
      · obtain ⟨r, t', rfl⟩ := List.exists_cons_of_ne_nil htne
        simp
      · rw [List.getLast?_append_of_ne_nil _ (by simp)]
        obtain ⟨c, cs, e⟩ := List.exists_cons_of_ne_nil hjne
        have := hi.last
        rw [e] at this ⊢
        rwa [List.getLast?_cons_cons]

/-- The lines of a text without double spaces. -/
theorem reflow_spaced {g : List Rune} {atGap : List Rune → Prop}
    {inWord : Rune → List Rune → Prop} {cs : List Ch} {lines : List (List Rune)} (h : Reflow g atGap inWord cs lines) :
    Spaced cs → cs ≠ [] → ∀ x ∈ lines, ∃ p e, x = chText g p ++ e ∧ (e = [] ∨ atGap e ∨ ∃ r, inWord r e) ∧ p ≠ [] ∧ Spaced p ∧ ∀ c ∈ p, c ∈ cs := by
  induction h with
  | last p =>
    intro hs hne x hx
    simp at hx
    subst hx
    exact ⟨p, [], by simp, Or.inl rfl, hne, hs, fun c hc => hc⟩
  | @gap p e rest lines he _ ih =>
    intro hs hne x hx
    have hch := hs.chain
    rw [List.isChain_append, List.isChain_cons] at hch
    obtain ⟨c1, ⟨c2, c3⟩, c4⟩ := hch
    have hp : p ≠ [] := by
      rintro rfl; exact hs.head (by simp)
    have hr : rest ≠ [] := by
      rintro rfl; exact hs.last (by simp)
    have hsp : Spaced p := by
      refine ⟨c1, ?_, ?_⟩
      · obtain ⟨c, p', rfl⟩ := List.exists_cons_of_ne_nil hp
        have := hs.head
        simpa using this
      · intro hl
        have := c4 _ hl .gap (by simp)
        simp at this
    rcases List.mem_cons.mp hx with rfl | hx
    · exact ⟨p, e, rfl, Or.inr (Or.inl he), hp, hsp, fun c hc => by simp [hc]⟩
    · have hsr : Spaced rest := by
        refine ⟨c3, ?_, ?_⟩
        · intro hl
          have := c2 _ hl
          simp at this
        · have := hs.last
          rw [List.getLast?_append_of_ne_nil _ (by simp)] at this
          obtain ⟨c, cs, e⟩ := List.exists_cons_of_ne_nil hr
          rw [e] at this ⊢
          rwa [List.getLast?_cons_cons] at this
      obtain ⟨q, e', h1, h2, h3, h4, h5⟩ := ih hsr hr x hx
      exact ⟨q, e', h1, h2, h3, h4, fun c hc => by simp [h5 c hc]⟩
  | @inside p r r' e rest lines he _ ih =>
    intro hs hne x hx
    have hch := hs.chain
    rw [show p ++ Ch.rune r :: Ch.rune r' :: rest = (p ++ [Ch.rune r]) ++ (Ch.rune r' :: rest) by simp] at hch
    rw [List.isChain_append] at hch
    obtain ⟨c1, c2, _⟩ := hch
    rcases List.mem_cons.mp hx with rfl | hx
    · refine ⟨p ++ [.rune r], e, rfl, Or.inr (Or.inr ⟨r, he⟩), by simp, ⟨c1, ?_, by simp⟩, fun c hc => ?_⟩
      · have := hs.head
        cases p <;> simp at this ⊢
        exact this
      · simp at hc ⊢
        rcases hc with h | h <;> simp [h]
    · have hsr : Spaced (.rune r' :: rest) := by
        refine ⟨c2, by simp, ?_⟩
        have := hs.last
        rw [List.getLast?_append_of_ne_nil _ (by simp), List.getLast?_cons_cons] at this
        exact this
      obtain ⟨q, e', h1, h2, h3, h4, h5⟩ := ih hsr (by simp) x hx
      refine ⟨q, e', h1, h2, h3, h4, fun c hc => ?_⟩
      have := h5 c hc
      simp at this ⊢
      tauto

theorem mem_joined (ts : List (List Rune)) (r : Rune) (h : .rune r ∈ joined ts) : ∃ t ∈ ts, r ∈ t := by
  induction ts with
  | nil => simp [joined] at h
  | cons t ts ih =>
    cases ts with
    | nil => simp [joined] at h; exact ⟨t, by simp, h⟩
    | cons u us =>
      simp only [joined, List.mem_append, List.mem_map, Ch.rune.injEq, exists_eq_right, List.mem_cons, reduceCtorEq, false_or] at h
      rcases h with h | h
      · exact ⟨t, by simp, h⟩
      · obtain ⟨v, hv, hr⟩ := ih h
        exact ⟨v, by simp [hv], hr⟩

end Verif.Proofs.LB
