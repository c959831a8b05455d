import Verif.Model.Hyphenator
import Verif.Spec.Liang

/-! # Lemmas on splitAtPositions -/

namespace Verif.Proofs
open Verif.Go Verif.Model Verif.Spec

/-- The positions retained by splitAtPositions. -/
def cutsOf (o : HOptions) (length : Nat) : List Int → Nat → Nat → List Nat
  | [], _, _ => []
  | pos :: rest, i, previous =>
    if pos = 0 ∨ Int.tmod pos 2 = 0 then cutsOf o length rest (i + 1) previous
    else if (i : Int) - previous < o.minLeft ∨ (length : Int) - i < o.minRight then
      cutsOf o length rest (i + 1) previous
    else i :: cutsOf o length rest (i + 1) i

def splitEnd (word : List Rune) (p : List (List Rune) × Nat) : Res (List (List Rune)) := do
  let last ← slice word p.2 word.length
  return p.1 ++ [last]

theorem splitAtPositions_def (o : HOptions) (word : List Rune) (n : Nat) (ps : List Int) :
    splitAtPositions o word n ps = splitLoop o word n ps 0 0 [] >>= splitEnd word := rfl

theorem splitLoop_cuts (o : HOptions) (hr : 0 ≤ o.minRight) (word : List Rune) :
    ∀ (ps : List Int) (i prev : Nat) (parts : List (List Rune)), prev ≤ i → prev ≤ word.length →
      (splitLoop o word word.length ps i prev parts >>= splitEnd word)
        = .ok (parts ++ cutAt word prev (cutsOf o word.length ps i prev)) := by
  intro ps
  induction ps with
  | nil =>
    intro i prev parts h1 h2
    simp only [splitLoop, ok_bind, splitEnd, cutsOf, cutAt]
    rw [slice_ok h2 (Nat.le_refl _), List.take_of_length_le (by simp)]
    simp
  | cons pos rest ih =>
    intro i prev parts h1 h2
    simp only [splitLoop, cutsOf]
    split
    · exact ih _ _ _ (by omega) h2
    · split
      · exact ih _ _ _ (by omega) h2
      · rename_i hm
        rw [slice_ok h1 (by omega)]
        simp only [ok_bind]
        rw [ih _ _ _ (by omega) (by omega)]
        simp [cutAt]

theorem splitAtPositions_cuts (o : HOptions) (hr : 0 ≤ o.minRight) (word : List Rune)
    (ps : List Int) :
    splitAtPositions o word word.length ps = .ok (cutAt word 0 (cutsOf o word.length ps 0 0)) := by
  rw [splitAtPositions_def, splitLoop_cuts o hr word ps 0 0 [] (Nat.le_refl _) (Nat.zero_le _)]
  simp

/-- The value at `i` allows a break. -/
def OddAt (ps : List Int) (i : Nat) : Prop := ∃ v, ps[i]? = some v ∧ v ≠ 0 ∧ Int.tmod v 2 ≠ 0

theorem cutsOf_ge (o : HOptions) (n : Nat) : ∀ (ps : List Int) (i prev : Nat),
    ∀ c ∈ cutsOf o n ps i prev, i ≤ c ∧ o.minRight ≤ (n : Int) - c := by
  intro ps
  induction ps with
  | nil => intro i prev c hc; simp [cutsOf] at hc
  | cons pos rest ih =>
    intro i prev c hc
    simp only [cutsOf] at hc
    split at hc
    · have := ih _ _ c hc; omega
    · split at hc
      · have := ih _ _ c hc; omega
      · simp only [List.mem_cons] at hc
        rcases hc with rfl | hc
        · omega
        · have := ih _ _ c hc; omega

theorem cutsOf_sorted (o : HOptions) (n : Nat) : ∀ (ps : List Int) (i prev : Nat),
    (cutsOf o n ps i prev).Pairwise (· < ·) := by
  intro ps
  induction ps with
  | nil => intro i prev; simp [cutsOf]
  | cons pos rest ih =>
    intro i prev
    simp only [cutsOf]
    split
    · exact ih _ _
    · split
      · exact ih _ _
      · rw [List.pairwise_cons]
        exact ⟨fun c hc => (cutsOf_ge o n rest _ _ c hc).1, ih _ _⟩

theorem cutsOf_mem (o : HOptions) (n : Nat) : ∀ (ps : List Int) (i prev : Nat), prev ≤ i →
    ∀ j, j ∈ cutsOf o n ps i prev ↔
      (i ≤ j ∧ OddAt ps (j - i) ∧ o.minRight ≤ (n : Int) - j ∧ o.minLeft ≤ (j : Int) - prev ∧
        ∀ c ∈ cutsOf o n ps i prev, c < j → o.minLeft ≤ (j : Int) - c) := by
  intro ps
  induction ps with
  | nil => intro i prev _ j; simp [cutsOf, OddAt]
  | cons pos rest ih =>
    intro i prev h j
    have oddCons : ∀ j, i + 1 ≤ j → (OddAt (pos :: rest) (j - i) ↔ OddAt rest (j - (i + 1))) := by
      intro j hj
      have : j - i = (j - (i + 1)) + 1 := by omega
      unfold OddAt
      rw [this, List.getElem?_cons_succ]
    have odd0 : OddAt (pos :: rest) (i - i) ↔ (pos ≠ 0 ∧ Int.tmod pos 2 ≠ 0) := by
      simp [OddAt]
    -- the case where position i is skipped
    have skip : ¬ (OddAt (pos :: rest) (i - i) ∧ o.minRight ≤ (n : Int) - i ∧
          o.minLeft ≤ (i : Int) - prev) →
        (j ∈ cutsOf o n rest (i + 1) prev ↔
          (i ≤ j ∧ OddAt (pos :: rest) (j - i) ∧ o.minRight ≤ (n : Int) - j ∧
            o.minLeft ≤ (j : Int) - prev ∧
            ∀ c ∈ cutsOf o n rest (i + 1) prev, c < j → o.minLeft ≤ (j : Int) - c)) := by
      intro hskip
      rw [ih (i + 1) prev (by omega) j]
      constructor
      · rintro ⟨h1, h2, h3⟩
        exact ⟨by omega, (oddCons j h1).mpr h2, h3⟩
      · rintro ⟨h1, h2, h3, h4, h5⟩
        have hij : i + 1 ≤ j := by
          apply Decidable.byContradiction
          intro hn
          have : j = i := by omega
          subst this
          exact hskip ⟨h2, h3, h4⟩
        exact ⟨hij, (oddCons j hij).mp h2, h3, h4, h5⟩
    simp only [cutsOf]
    split
    · rename_i hp
      refine skip ?_
      rw [odd0]
      rintro ⟨⟨h1, h2⟩, _⟩
      rcases hp with hp | hp
      · exact h1 hp
      · exact h2 hp
    · split
      · rename_i hp hm
        refine skip ?_
        rintro ⟨_, h1, h2⟩
        omega
      · rename_i hp hm
        rw [List.mem_cons, ih (i + 1) i (by omega) j]
        constructor
        · rintro (rfl | ⟨h1, h2, h3, h4, h5⟩)
          · refine ⟨Nat.le_refl _, odd0.mpr ?_, by omega, by omega, ?_⟩
            · exact ⟨fun e => hp (Or.inl e), fun e => hp (Or.inr e)⟩
            · intro c hc hlt
              simp only [List.mem_cons] at hc
              rcases hc with rfl | hc
              · omega
              · have := (cutsOf_ge o n rest _ _ c hc).1; omega
          · refine ⟨by omega, (oddCons j h1).mpr h2, h3, by omega, ?_⟩
            intro c hc hlt
            simp only [List.mem_cons] at hc
            rcases hc with rfl | hc
            · exact h4
            · exact h5 c hc hlt
        · rintro ⟨h1, h2, h3, h4, h5⟩
          by_cases hij : j = i
          · exact Or.inl hij
          · right
            refine ⟨by omega, (oddCons j (by omega)).mp h2, h3, ?_, ?_⟩
            · exact h5 i (by simp) (by omega)
            · intro c hc hlt
              exact h5 c (by simp [hc]) hlt

/-- splitAtPositions computes the cuts of the specification. -/
theorem cutsOf_isCuts (o : HOptions) (n : Nat) (ps : List Int) :
    IsCuts (OddAt ps) o.minLeft o.minRight n (cutsOf o n ps 0 0) := by
  refine ⟨cutsOf_sorted o n ps 0 0, fun i => ?_⟩
  rw [cutsOf_mem o n ps 0 0 (Nat.le_refl _) i]
  constructor
  · rintro ⟨_, h2, h3, h4, h5⟩
    exact ⟨by simpa using h2, h3, by omega, h5⟩
  · rintro ⟨h2, h3, h4, h5⟩
    exact ⟨by omega, by simpa using h2, h3, by omega, h5⟩

theorem cutAt_ne_nil (word : List Rune) (prev : Nat) (cs : List Nat) : cutAt word prev cs ≠ [] := by
  cases cs <;> simp [cutAt]

theorem cutAt_flatten (word : List Rune) : ∀ (cs : List Nat) (prev : Nat),
    cs.Pairwise (· < ·) → (∀ c ∈ cs, prev ≤ c ∧ c ≤ word.length) →
    (cutAt word prev cs).flatten = word.drop prev := by
  intro cs
  induction cs with
  | nil => intro prev _ _; simp [cutAt]
  | cons c cs ih =>
    intro prev hs hb
    rw [List.pairwise_cons] at hs
    have hc := hb c (by simp)
    simp only [cutAt, List.flatten_cons]
    rw [ih c hs.2 (fun x hx => ⟨by have := hs.1 x hx; omega, (hb x (by simp [hx])).2⟩)]
    have : word.drop c = (word.drop prev).drop (c - prev) := by
      rw [List.drop_drop]; congr 1; omega
    rw [this, List.take_append_drop]

/-- Lengths of the parts. -/
theorem cutAt_lengths (word : List Rune) (minLeft minRight : Int) : ∀ (cs : List Nat) (prev : Nat),
    cs.Pairwise (· < ·) → (∀ c ∈ cs, prev ≤ c ∧ minRight ≤ (word.length : Int) - c ∧ c ≤ word.length) →
    (∀ c ∈ cs, minLeft ≤ (c : Int) - prev) →
    (∀ c ∈ cs, ∀ d ∈ cs, d < c → minLeft ≤ (c : Int) - d) →
    cs ≠ [] →
    (∀ p ∈ (cutAt word prev cs).dropLast, minLeft ≤ (p.length : Int)) ∧
    (∀ p, (cutAt word prev cs).getLast? = some p → minRight ≤ (p.length : Int)) := by
  intro cs
  induction cs with
  | nil => intro prev _ _ _ _ h; exact absurd rfl h
  | cons c cs ih =>
    intro prev hs hb hl hd _
    rw [List.pairwise_cons] at hs
    have hc := hb c (by simp)
    have hlen : (((word.drop prev).take (c - prev)).length : Int) = (c : Int) - prev := by
      rw [List.length_take, List.length_drop]
      have : c - prev ≤ word.length - prev := by omega
      omega
    have hfirst : minLeft ≤ (((word.drop prev).take (c - prev)).length : Int) := by
      rw [hlen]; exact hl c (by simp)
    cases cs with
    | nil =>
      simp only [cutAt]
      constructor
      · intro p hp
        simp at hp; subst hp; simpa using hfirst
      · intro p hp
        simp at hp; subst hp
        rw [List.length_drop]; omega
    | cons c' cs' =>
      have ih' := ih c hs.2 (fun x hx => ⟨by have := hs.1 x hx; omega, (hb x (by simp [hx])).2⟩)
        (fun x hx => hd x (by simp [hx]) c (by simp) (hs.1 x hx))
        (fun x hx y hy => hd x (by simp [hx]) y (by simp [hy])) (by simp)
      have hne := cutAt_ne_nil word c (c' :: cs')
      constructor
      · intro p hp
        rw [cutAt] at hp
        rw [List.dropLast_cons_of_ne_nil hne] at hp
        simp only [List.mem_cons] at hp
        rcases hp with rfl | hp
        · exact hfirst
        · exact ih'.1 p hp
      · intro p hp
        rw [cutAt, List.getLast?_cons] at hp
        refine ih'.2 p ?_
        cases hq : (cutAt word c (c' :: cs')).getLast? with
        | none => rw [List.getLast?_eq_none_iff] at hq; exact absurd hq hne
        | some q => rw [hq] at hp; simpa using hp

end Verif.Proofs
