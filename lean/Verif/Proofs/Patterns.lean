import Verif.Proofs.Dictionary
import Verif.Proofs.Hyphenator

/-! # Patterns and exceptions, letter by letter -/

namespace Verif.Proofs
open Verif.Go Verif.Model Verif.Spec

section marks
variable (isMark : Rune → Bool) (val : Rune → Int)

def lastMark (b : Bool) (s : List Rune) : Bool := match s.getLast? with
  | none => b
  | some c => isMark c

theorem lastMark_cons (b : Bool) (c : Rune) (s : List Rune) :
    lastMark isMark b (c :: s) = lastMark isMark (isMark c) s := by
  unfold lastMark
  rw [List.getLast?_cons]
  cases s.getLast? <;> rfl

theorem gapMarksFrom_append (b : Bool) (a s : List Rune) :
    gapMarksFrom isMark val b (a ++ s) =
      gapMarksFrom isMark val b a ++ gapMarksFrom isMark val (lastMark isMark b a) s := by
  induction a generalizing b with
  | nil => simp [gapMarksFrom, lastMark]
  | cons c a ih =>
    rw [List.cons_append, gapMarksFrom_cons, gapMarksFrom_cons, ih, lastMark_cons, List.append_assoc]

/-- No two adjacent marks. -/
def NoAdj : Bool → List Rune → Prop
  | _, [] => True
  | b, c :: s => (b = true → isMark c = false) ∧ NoAdj (isMark c) s

theorem noAdj_append (b : Bool) (a s : List Rune) (h : NoAdj isMark b (a ++ s)) :
    NoAdj isMark b a ∧ NoAdj isMark (lastMark isMark b a) s := by
  induction a generalizing b with
  | nil => exact ⟨trivial, h⟩
  | cons c a ih =>
    obtain ⟨h1, h2⟩ := h
    obtain ⟨h3, h4⟩ := ih _ h2
    rw [lastMark_cons]
    exact ⟨⟨h1, h3⟩, h4⟩

theorem noAdj_of (s : List Rune)
    (h : ∀ a c d b, s = a ++ c :: d :: b → ¬ (isMark c = true ∧ isMark d = true)) :
    NoAdj isMark false s := by
  have gen : ∀ (s : List Rune) (b : Bool), (∀ c s', b = true → s = c :: s' → isMark c = false) →
      (∀ a c d b, s = a ++ c :: d :: b → ¬ (isMark c = true ∧ isMark d = true)) →
      NoAdj isMark b s := by
    intro s
    induction s with
    | nil => intro b _ _; trivial
    | cons c s ih =>
      intro b h1 h2
      refine ⟨fun hb => h1 c s hb rfl, ih _ ?_ ?_⟩
      · intro d s' hc hs
        have := h2 [] c d s' (by simp [hs])
        cases hd : isMark d
        · rfl
        · exact absurd ⟨hc, hd⟩ this
      · intro a x y b' hs
        exact h2 (c :: a) x y b' (by simp [hs])
  exact gen s false (by intro c s' hb; cases hb) h

theorem gapMarksFrom_length (b : Bool) (s : List Rune) (h : NoAdj isMark b s) :
    (gapMarksFrom isMark val b s).length + b.toNat =
      (s.filter (fun c => !isMark c)).length + (lastMark isMark b s).toNat := by
  induction s generalizing b with
  | nil => simp [gapMarksFrom, lastMark]
  | cons c s ih =>
    obtain ⟨h1, h2⟩ := h
    have ih' := ih _ h2
    rw [gapMarksFrom_cons, lastMark_cons, List.length_append]
    by_cases hc : isMark c = true
    · have hb : b = false := by
        cases b
        · rfl
        · have := h1 rfl; rw [hc] at this; cases this
      subst hb
      simp [hc] at ih' ⊢
      omega
    · have hc' : isMark c = false := by simpa using hc
      cases b
      · simp [hc'] at ih' ⊢; omega
      · simp [hc'] at ih' ⊢; omega

theorem gapMarks_eq (s : List Rune) : gapMarks isMark val s = gapMarksFrom isMark val false s := rfl

theorem gapMarks_letter (a b : List Rune) (c : Rune) (h : NoAdj isMark false (a ++ c :: b))
    (hc : isMark c = false) (hl : lastMark isMark false a = false) :
    (gapMarks isMark val (a ++ c :: b))[(a.filter (fun c => !isMark c)).length]? = some 0 := by
  obtain ⟨h1, h2⟩ := noAdj_append isMark false a _ h
  have hlen := gapMarksFrom_length isMark val false a h1
  rw [hl] at hlen
  simp only [Bool.toNat_false, Nat.add_zero] at hlen
  rw [gapMarks_eq, gapMarksFrom_append, ← hlen, List.getElem?_append_right (Nat.le_refl _), hl,
    gapMarksFrom_cons]
  simp [hc]

theorem gapMarks_mark (a b : List Rune) (d : Rune) (h : NoAdj isMark false (a ++ d :: b))
    (hd : isMark d = true) :
    (gapMarks isMark val (a ++ d :: b))[(a.filter (fun c => !isMark c)).length]? = some (val d) := by
  obtain ⟨h1, h2⟩ := noAdj_append isMark false a _ h
  have hl : lastMark isMark false a = false := by
    cases hx : lastMark isMark false a
    · rfl
    · rw [hx] at h2; have := h2.1 rfl; rw [hd] at this; cases this
  have hlen := gapMarksFrom_length isMark val false a h1
  rw [hl] at hlen
  simp only [Bool.toNat_false, Nat.add_zero] at hlen
  rw [gapMarks_eq, gapMarksFrom_append, ← hlen, List.getElem?_append_right (Nat.le_refl _), hl,
    gapMarksFrom_cons]
  simp [hd]

end marks

/-! ## Exceptions -/

theorem gapMarksFrom_letters (isMark : Rune → Bool) (val : Rune → Int) (w s : List Rune)
    (hw : ∀ c ∈ w, isMark c = false) (b : Bool) :
    gapMarksFrom isMark val b (w ++ s) =
      List.replicate (w.length - (if w = [] then 0 else b.toNat)) 0 ++
        gapMarksFrom isMark val (if w = [] then b else false) s := by
  induction w generalizing b with
  | nil => simp
  | cons c w ih =>
    have hc := hw c (by simp)
    rw [List.cons_append, gapMarksFrom_cons, ih (fun x hx => hw x (by simp [hx])), hc]
    cases b
    · by_cases hwe : w = []
      · simp [hwe]
      · simp [hwe, List.replicate_succ]
    · by_cases hwe : w = []
      · simp [hwe]
      · simp [hwe]

theorem cutsOf_zeros (o : HOptions) (n : Nat) (k : Nat) (rest : List Int) (i prev : Nat) :
    cutsOf o n (List.replicate k 0 ++ rest) i prev = cutsOf o n rest (i + k) prev := by
  induction k generalizing i with
  | zero => simp
  | succ k ih =>
    rw [List.replicate_succ, List.cons_append, cutsOf, if_pos (Or.inl rfl), ih]
    congr 1; omega

theorem flatten_length_last (ps : List (List Rune)) (p : List Rune) (h : ps.getLast? = some p) :
    p.length ≤ ps.flatten.length := by
  have : p ∈ ps := List.mem_of_getLast? h
  obtain ⟨a, b, rfl⟩ := List.append_of_mem this
  simp; omega

/-- The cuts of an exception entry are the ends of its parts. -/
theorem exception_cuts (o : HOptions) (n : Nat) :
    ∀ (parts : List (List Rune)) (i prev : Nat) (b : Bool) (word : List Rune),
    parts ≠ [] →
    (∀ p ∈ parts, p ≠ [] ∧ ∀ r ∈ p, isHyphenRune r = false) →
    (∀ p ∈ parts.dropLast, o.minLeft ≤ (p.length : Int)) →
    (∀ p, parts.getLast? = some p → o.minRight ≤ (p.length : Int)) →
    word.drop prev = parts.flatten → prev ≤ word.length →
    n = word.length → i = prev + b.toNat →
    cutAt word prev (cutsOf o n (gapMarksFrom isHyphenRune (fun _ => 1) b
      (List.intercalate [0x2D] parts)) i prev) = parts := by
  intro parts
  induction parts with
  | nil => intro i prev b word h; exact absurd rfl h
  | cons p parts ih =>
    intro i prev b word _ hp hl hr hw hpw hn hi
    have hp1 := hp p (by simp)
    have hp1len : 0 < p.length := List.length_pos_iff.mpr hp1.1
    have hlen : word.length = prev + (p.length + parts.flatten.length) := by
      have := congrArg List.length hw
      rw [List.length_drop, List.flatten_cons, List.length_append] at this
      omega
    have hb : b.toNat ≤ 1 := by cases b <;> simp
    cases parts with
    | nil =>
      have e : List.intercalate [(0x2D : Int)] [p] = p ++ [] := by simp [List.intercalate]
      rw [e, gapMarksFrom_letters _ _ _ _ hp1.2, cutsOf_zeros]
      have : gapMarksFrom isHyphenRune (fun _ => 1) (if p = [] then b else false) [] = [] := by
        simp [gapMarksFrom]
      rw [this, cutsOf, cutAt, hw]
      simp
    | cons q parts =>
      have e : List.intercalate [(0x2D : Int)] (p :: q :: parts) =
          p ++ (0x2D :: List.intercalate [0x2D] (q :: parts)) := by
        simp [List.intercalate, List.intersperse]
      rw [e, gapMarksFrom_letters _ _ _ _ hp1.2, cutsOf_zeros]
      simp only [hp1.1, if_false]
      have hidx : i + (p.length - b.toNat) = prev + p.length := by omega
      rw [hidx, gapMarksFrom_cons]
      have hh : isHyphenRune 0x2D = true := by decide
      simp only [hh, if_true, List.singleton_append]
      have hlast : ∃ z, (q :: parts).getLast? = some z := ⟨_, List.getLast?_eq_some_getLast (by simp)⟩
      obtain ⟨z, hz⟩ := hlast
      have hzr : o.minRight ≤ (z.length : Int) := by
        apply hr z
        rw [List.getLast?_cons, hz]; rfl
      have hzl := flatten_length_last (q :: parts) z hz
      have hml : o.minLeft ≤ (p.length : Int) := by
        apply hl p
        rw [List.dropLast_cons_of_ne_nil (by simp)]; simp
      rw [cutsOf, if_neg (by decide), if_neg (by omega), cutAt]
      have hd : word.drop (prev + p.length) = (q :: parts).flatten := by
        rw [← List.drop_drop, hw]
        simp
      rw [ih (prev + p.length + 1) (prev + p.length) true word (by simp)
        (fun x hx => hp x (by simp [hx]))
        (fun x hx => hl x (by rw [List.dropLast_cons_of_ne_nil (by simp)]; simp [hx]))
        (fun x hx => hr x (by rw [List.getLast?_cons, hx]; rfl))
        hd (by omega) hn (by simp)]
      congr 1
      rw [hw]; simp

end Verif.Proofs
