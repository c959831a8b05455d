import Verif.Proofs.LBReady

/-! # Which of the acceptable lines are chosen -/

set_option linter.unusedSectionVars false

namespace Verif.Proofs.LB
open Verif.Go Verif.Model Verif.Model.LB Verif.Spec Verif.Spec.LB

theorem laid_of_layoutR {hy hy' : Sym → List Rune} {P : Bool → List Sym → Option Sym → List Sym → Prop} {first : Bool}
    {ss : List Sym} {ls : List Line} (he : ∀ s, (∀ t, s ≠ .part t) → hy s = hy' s) (hg : hy' .gap = [])
    (h : LayoutR hy P false first ss ls) : Laid hy' P first ss ls := by
  induction h with
  | blankLine h => cases h
  | lastBlank h => cases h
  | blankAfter _ h => cases h
  | last p a b => exact .last p a b
  | brk p s x a b c d _ ih =>
    have : x = hy' s := by
      rcases c with c | ⟨rfl, c⟩
      · rw [c, he s b]
      · rw [c, hg]
    subst this
    exact .brk p s a b d ih

theorem startLine_suffix (ss : List Sym) : startLine ss <:+ ss := by
  induction ss with
  | nil => exact List.suffix_rfl
  | cons x xs ih =>
    cases x with
    | part t => exact List.suffix_rfl
    | _ => exact ih.trans (List.suffix_cons _ _)

theorem left_suffix {P : Bool → List Sym → Option Sym → Prop} {syms : List Sym} {first : Bool} {r : List Sym}
    (h : Left P syms first r) : r <:+ syms := by
  induction h with
  | start => exact List.suffix_rfl
  | @line f p s rest _ _ _ _ ih =>
    refine (startLine_suffix rest).trans (List.IsSuffix.trans ?_ ih)
    exact ⟨p ++ [s], by simp⟩

/-- The last line of a layout. -/
theorem layout_end {hy : Sym → List Rune} {P : Bool → List Sym → Option Sym → Prop} {syms : List Sym} {first : Bool}
    {ss : List Sym} {ls : List Line} (h : Layout hy P false first ss ls) (hl : Left P syms first ss) :
    ∃ f p, ls.getLast? = some ⟨p, []⟩ ∧ Left P syms f p ∧ P f p none := by
  induction h with
  | blankLine h => cases h
  | lastBlank h => cases h
  | blankAfter _ h => cases h
  | last p a b => exact ⟨_, p, rfl, hl, b⟩
  | @brk f p s x rest lines a b c d e ih =>
    obtain ⟨g, q, h1, h2⟩ := ih (.line p s hl a b d)
    exact ⟨g, q, by rw [List.getLast?_cons, h1]; rfl, h2⟩

theorem laid_end {hy : Sym → List Rune} {P : Bool → List Sym → Option Sym → Prop}
    {Q : Bool → List Sym → Option Sym → List Sym → Prop} {syms : List Sym} {first : Bool}
    {ss : List Sym} {ls : List Line} (h : LayoutR hy (fun f p s r => P f p s ∧ Q f p s r) false first ss ls)
    (hl : Left P syms first ss) : ∃ f p, ls.getLast? = some ⟨p, []⟩ ∧ Left P syms f p ∧ P f p none ∧ Q f p none [] := by
  induction h with
  | blankLine h => cases h
  | lastBlank h => cases h
  | blankAfter _ h => cases h
  | last p a b => exact ⟨_, p, rfl, hl, b⟩
  | @brk f p s x rest lines a b c d e ih =>
    obtain ⟨g, q, h1, h2⟩ := ih (.line p s hl a b d.1)
    exact ⟨g, q, by rw [List.getLast?_cons, h1]; rfl, h2⟩

section
variable {F : Type} [Arith F] [Laws F]

/-- The last line of a paragraph is never loose. -/
theorem looseness_end {l : LineBreaker F} {m : Measure} (hs : Setup l m) {W : Int} (hW : W ≤ 4997) {ok : Int → Int → Prop}
    {f : Bool} {p : List Sym} (h : Acceptable m W ok f p none) : looseness F m W f p none = 1 := by
  have hnn : 0 ≤ lineWidth m p := lineWidth_nonneg hs p
  have hst : 9994 ≤ lineStretch m f p none ∧ lineStretch m f p none ≤ 10000 := by
    simp only [lineStretch]
    split
    · constructor <;> decide
    · split <;> constructor <;> decide
  unfold looseness
  simp only [endWidth, add_zero]
  rcases h with e | ⟨e, _⟩
  · simp only [endWidth, add_zero] at e
    simp [e]
  · simp only [endWidth, add_zero] at e
    have := Laws.div_half (F := F) (W - lineWidth m p) (lineStretch m f p none) (by omega) (by omega)
      (_root_.le_trans hst.2 (_root_.le_trans (by decide) (Laws.bound_large (F := F)))) (by omega)
    rw [this]
    simp

/-- **The last line.** -/
theorem last_longest {l : LineBreaker F} {m : Measure} (hs : Setup l m) {W : Int} (hW : W ≤ 4997) {ok : Int → Int → Prop}
    {hy hy' : Sym → List Rune} {ss : List Sym} {ls ls' : List Line}
    (h : LayoutR hy (fun f p s r => Acceptable m W ok f p s ∧ Earliest (Acceptable m W ok) (looseness F m W) ss f p s r)
      false true ss ls) (h' : Layout hy' (Acceptable m W ok) false true ss ls') :
    ∃ b b', ls.getLast? = some ⟨b, []⟩ ∧ ls'.getLast? = some ⟨b', []⟩ ∧ b' <:+ b := by
  obtain ⟨f, p, a1, a2, a3, a4⟩ := laid_end h .start
  obtain ⟨f', p', b1, b2, b3⟩ := layout_end h' .start
  refine ⟨p, p', a1, b1, ?_⟩
  rcases List.suffix_or_suffix_of_suffix (left_suffix a2) (left_suffix b2) with e | e
  · obtain ⟨q, rfl⟩ := e
    have := a4 q f' (by simpa using b2) b3 (by rw [looseness_end hs hW b3, looseness_end hs hW a3])
    subst this
    exact List.suffix_rfl
  · exact e

end

end Verif.Proofs.LB
