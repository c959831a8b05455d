import Verif.Proofs.LBChoice

/-! # Settings that follow the same choices are the same -/

set_option linter.unusedSectionVars false

namespace Verif.Proofs.LB
open Verif.Go Verif.Model Verif.Model.LB Verif.Spec Verif.Spec.LB

/-- Lines set with the start of a text, the last one first. -/
inductive LaidTo (hy : Sym → List Rune) (P : Bool → List Sym → Option Sym → List Sym → Prop) (syms : List Sym) :
    Bool → List Sym → List Line → Prop where
  | start : LaidTo hy P syms true syms []
  | line {first : Bool} (p : List Sym) (s : Sym) {rest : List Sym} {lines : List Line} :
      LaidTo hy P syms first (p ++ s :: rest) lines → StartsWithPart p → (∀ t, s ≠ .part t) → P first p (some s) rest →
      LaidTo hy P syms false (startLine rest) (⟨p, hy s⟩ :: lines)

variable {hy : Sym → List Rune} {P A B : Bool → List Sym → Option Sym → List Sym → Prop}
  {Q : Bool → List Sym → Option Sym → Prop} {cls : Bool → List Sym → Option Sym → Int}
  {full : List Sym → Option Sym → Prop} {syms : List Sym}

theorem laid_to {first : Bool} {ss : List Sym} {ls : List Line} (h : Laid hy P first ss ls) :
    ∀ acc, LaidTo hy P syms first ss acc → ∃ f p acc', LaidTo hy P syms f p acc' ∧ StartsWithPart p ∧ P f p none [] ∧
      acc.reverse ++ ls = acc'.reverse ++ [⟨p, []⟩] := by
  induction h with
  | last p h1 h2 => exact fun acc ha => ⟨_, p, acc, ha, h1, h2, rfl⟩
  | brk p s h1 h2 h3 _ ih =>
    intro acc ha
    obtain ⟨f, q, acc', g1, g2, g3, g4⟩ := ih _ (.line p s ha h1 h2 h3)
    exact ⟨f, q, acc', g1, g2, g3, by rw [← g4]; simp⟩

theorem laidTo_left (hP : ∀ f p s r, P f p s r → Q f p s) {first : Bool} {r : List Sym} {ls : List Line}
    (h : LaidTo hy P syms first r ls) : Left Q syms first r := by
  induction h with
  | start => exact .start
  | line p s _ h1 h2 h3 ih => exact .line p s ih h1 h2 (hP _ _ _ _ h3)

theorem startLine_length_le (ss : List Sym) : (startLine ss).length ≤ ss.length := (startLine_suffix ss).length_le

theorem startsWithPart_length {p : List Sym} (h : StartsWithPart p) : 0 < p.length := by
  obtain ⟨t, r, rfl⟩ := h; simp

/-- Two lines that end at the same place and are as loose start at the same place. -/
theorem earliest_eq {f f' : Bool} {p p' : List Sym} {s : Option Sym} {r : List Sym}
    (hl : Left Q syms f (p ++ s.toList ++ r)) (hl' : Left Q syms f' (p' ++ s.toList ++ r))
    (hq : Q f p s) (hq' : Q f' p' s) (he : Earliest Q cls syms f p s r) (he' : Earliest Q cls syms f' p' s r)
    (hc : cls f p s = cls f' p' s) : p = p' := by
  have h1 := left_suffix hl
  have h2 := left_suffix hl'
  have key : ∀ {p p' : List Sym}, (p ++ s.toList ++ r) <:+ (p' ++ s.toList ++ r) → ∃ q, p' = q ++ p := by
    intro p p' h
    obtain ⟨q, h⟩ := h
    refine ⟨q, ?_⟩
    rw [← List.append_assoc, ← List.append_assoc] at h
    exact (List.append_cancel_right (List.append_cancel_right h)).symm
  rcases List.suffix_or_suffix_of_suffix h1 h2 with h | h
  · obtain ⟨q, rfl⟩ := key h
    have := he q f' hl' hq' hc.symm
    rw [this]; rfl
  · obtain ⟨q, rfl⟩ := key h
    have := he' q f hl hq hc
    rw [this]; rfl

/-- The same choices give the same lines. -/
theorem laidTo_unique
    (hA : ∀ f p s r, A f p s r → Q f p s ∧ Earliest Q cls syms f p s r ∧ ∀ t, s = some t → EndsEarly Q full syms p t r)
    (hB : ∀ f p s r, B f p s r → Q f p s ∧ Earliest Q cls syms f p s r ∧ ∀ t, s = some t → EndsEarly Q full syms p t r)
    (hc : ∀ f p s r f' p', A f p s r → B f' p' s r → StartsWithPart p → StartsWithPart p' →
      Left Q syms f (p ++ s.toList ++ r) → Left Q syms f' (p' ++ s.toList ++ r) → cls f p s = cls f' p' s)
    {f f' : Bool} {r r' : List Sym} {ls ls' : List Line} (h : LaidTo hy A syms f r ls) (h' : LaidTo hy B syms f' r' ls')
    (hr : r = r') : f = f' ∧ ls = ls' := by
  induction h generalizing f' ls' r' with
  | start =>
    cases h' with
    | start => exact ⟨rfl, rfl⟩
    | @line g p s rest lines h1 h2 h3 h4 =>
      exfalso
      have e1 := (left_suffix (laidTo_left (fun f p s r h => (hB f p s r h).1) h1)).length_le
      have e2 := startLine_length_le rest
      have e3 := startsWithPart_length h2
      have e4 := congrArg List.length hr
      simp at e1
      omega
  | @line g p s rest lines h1 h2 h3 h4 ih =>
    have hl1 := laidTo_left (fun f p s r h => (hA f p s r h).1) h1
    cases h' with
    | start =>
      exfalso
      have e1 := (left_suffix hl1).length_le
      have e2 := startLine_length_le rest
      have e3 := startsWithPart_length h2
      have e4 := congrArg List.length hr
      simp at e1
      omega
    | @line g' p' s' rest' lines' k1 k2 k3 k4 =>
      have hl2 := laidTo_left (fun f p s r h => (hB f p s r h).1) k1
      obtain ⟨a1, a2, a3⟩ := hA _ _ _ _ h4
      obtain ⟨b1, b2, b3⟩ := hB _ _ _ _ k4
      have l1 := (a3 s rfl g' p' s' rest' hl2 k2 k3 b1 hr.symm).1
      have l2 := (b3 s' rfl g p s rest hl1 h2 h3 a1 hr).1
      have s1 : (s :: rest) <:+ syms := List.IsSuffix.trans ⟨p, rfl⟩ (left_suffix hl1)
      have s2 : (s' :: rest') <:+ syms := List.IsSuffix.trans ⟨p', rfl⟩ (left_suffix hl2)
      have e : s :: rest = s' :: rest' := by
        rcases List.suffix_or_suffix_of_suffix s1 s2 with h | h
        · exact h.eq_of_length (by simp; omega)
        · exact (h.eq_of_length (by simp; omega)).symm
      simp only [List.cons.injEq] at e
      obtain ⟨rfl, rfl⟩ := e
      have hpp : p = p' := earliest_eq (s := some s) (by simpa using hl1) (by simpa using hl2) a1 b1 a2 b2
        (hc _ _ _ _ _ _ h4 k4 h2 k2 (by simpa using hl1) (by simpa using hl2))
      subst hpp
      obtain ⟨_, e2⟩ := ih k1 rfl
      exact ⟨rfl, by rw [e2]⟩

/-- **The same choices give the same lines.** -/
theorem laid_unique
    (hA : ∀ f p s r, A f p s r → Q f p s ∧ Earliest Q cls syms f p s r ∧ ∀ t, s = some t → EndsEarly Q full syms p t r)
    (hB : ∀ f p s r, B f p s r → Q f p s ∧ Earliest Q cls syms f p s r ∧ ∀ t, s = some t → EndsEarly Q full syms p t r)
    (hc : ∀ f p s r f' p', A f p s r → B f' p' s r → StartsWithPart p → StartsWithPart p' →
      Left Q syms f (p ++ s.toList ++ r) → Left Q syms f' (p' ++ s.toList ++ r) → cls f p s = cls f' p' s)
    {ls ls' : List Line} (h : Laid hy A true syms ls) (h' : Laid hy B true syms ls') : ls = ls' := by
  obtain ⟨f, p, acc, h1, h2, h3, h4⟩ := laid_to (syms := syms) h [] .start
  obtain ⟨f', p', acc', k1, k2, k3, k4⟩ := laid_to (syms := syms) h' [] .start
  have hl1 := laidTo_left (fun f p s r h => (hA f p s r h).1) h1
  have hl2 := laidTo_left (fun f p s r h => (hB f p s r h).1) k1
  obtain ⟨a1, a2, _⟩ := hA _ _ _ _ h3
  obtain ⟨b1, b2, _⟩ := hB _ _ _ _ k3
  have hpp : p = p' := earliest_eq (s := none) (r := []) (by simpa using hl1) (by simpa using hl2) a1 b1 a2 b2
    (hc _ _ _ _ _ _ h3 k3 h2 k2 (by simpa using hl1) (by simpa using hl2))
  subst hpp
  obtain ⟨_, e⟩ := laidTo_unique hA hB hc h1 k1 rfl
  subst e
  have := h4.trans k4.symm
  simpa using this

/-- A line with the symbols `p` that ends at `s`: its looseness is the one wanted at this place, if a line that may be
set there has it. When the line fills the width and ends with a word, this need not be so. -/
def Wanted (P : Bool → List Sym → Option Sym → Prop) (cls : Bool → List Sym → Option Sym → Int)
    (full : List Sym → Option Sym → Prop) (syms : List Sym) (want : Nat → Int) (first : Bool) (p : List Sym) (s : Option Sym)
    (rest : List Sym) : Prop :=
  ∀ (f : Bool) (p' : List Sym), Left P syms f (p' ++ s.toList ++ rest) → StartsWithPart p' → P f p' s →
    cls f p' s = want rest.length →
    cls first p s = want rest.length ∨ (s = some .gap ∧ full p s ∧ ∃ t, p.getLast? = some (.part t))

theorem laid_imp {first : Bool} {ss : List Sym} {ls : List Line} (h : Laid hy A first ss ls) :
    (∀ f p s r, r.length < ss.length → A f p s r → B f p s r) → Laid hy B first ss ls := by
  induction h with
  | last p h1 h2 =>
    intro hi
    exact .last p h1 (hi _ _ _ _ (startsWithPart_length h1) h2)
  | @brk first p s rest lines h1 h2 h3 _ ih =>
    intro hi
    refine .brk p s h1 h2 (hi _ _ _ _ (by simp; omega) h3) (ih ?_)
    intro f p' s' r hr
    have := startLine_length_le rest
    exact hi _ _ _ _ (by simp; omega)

/-- The classes of the lines of a setting. -/
theorem laid_want (cls : Bool → List Sym → Option Sym → Int) {first : Bool} {ss : List Sym} {ls : List Line}
    (h : Laid hy A first ss ls) :
    ∃ want : Nat → Int, Laid hy (fun f p s r => A f p s r ∧ cls f p s = want r.length) first ss ls := by
  induction h with
  | @last first p h1 h2 => exact ⟨fun _ => cls first p none, .last p h1 ⟨h2, rfl⟩⟩
  | @brk first p s rest lines h1 h2 h3 _ ih =>
    obtain ⟨want, hw⟩ := ih
    refine ⟨fun n => if n = rest.length then cls first p (some s) else want n, .brk p s h1 h2 ⟨h3, by simp⟩ (laid_imp hw ?_)⟩
    rintro f p' s' r hr ⟨k1, k2⟩
    have := startLine_length_le rest
    exact ⟨k1, by simp only; rw [if_neg (by omega)]; exact k2⟩

end Verif.Proofs.LB
