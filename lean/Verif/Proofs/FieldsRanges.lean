import Verif.Proofs.Fields
import Verif.Spec.Runs

/-! # FieldsFunc as index ranges -/

namespace Verif.Proofs
open Verif.Go Verif.Model Verif.Spec

def fieldsRanges (f : Rune → Bool) : Nat → Nat → List Rune → List (Nat × Nat)
  | s, e, [] => if s < e then [(s, e)] else []
  | s, e, r :: rest =>
    if f r then
      if s < e then (s, e) :: fieldsRanges f (e + 1) (e + 1) rest
      else fieldsRanges f (e + 1) (e + 1) rest
    else fieldsRanges f s (e + 1) rest

theorem fieldsRef_ranges (f : Rune → Bool) (inp : List Rune) : ∀ (rest pre cur : List Rune),
    inp = pre ++ cur ++ rest →
    fieldsRef f cur rest =
      (fieldsRanges f pre.length (pre.length + cur.length) rest).map (range inp) := by
  intro rest
  induction rest with
  | nil =>
    intro pre cur h
    by_cases hc : cur = []
    · simp [fieldsRef, fieldsRanges, hc]
    · have : 0 < cur.length := List.length_pos_iff.mpr hc
      simp [fieldsRef, fieldsRanges, hc, range, h, show 0 < cur.length from this]
  | cons r rest ih =>
    intro pre cur h
    have hl : (pre ++ cur ++ [r]).length = pre.length + cur.length + 1 := by simp; omega
    by_cases hr : f r = true
    · have ih' := ih (pre ++ cur ++ [r]) [] (by simp [h])
      rw [hl] at ih'
      simp only [List.length_nil, Nat.add_zero] at ih'
      by_cases hc : cur = []
      · subst hc
        simp only [fieldsRef, fieldsRanges, hr, if_true, List.length_nil, Nat.add_zero] at *
        simp [ih']
      · have : 0 < cur.length := List.length_pos_iff.mpr hc
        simp only [fieldsRef, fieldsRanges, hr, if_true, hc, if_false]
        rw [if_pos (by omega), ih']
        simp [range, h]
    · have hr' : f r = false := by simpa using hr
      have ih' := ih pre (cur ++ [r]) (by simp [h])
      simp only [fieldsRef, fieldsRanges, hr', Bool.false_eq_true, if_false]
      rw [ih']
      simp [Nat.add_assoc]

theorem fieldsRanges_lo (f : Rune → Bool) : ∀ (rest : List Rune) (s e : Nat), s ≤ e →
    ∀ p ∈ fieldsRanges f s e rest, s ≤ p.1 ∧ p.1 < p.2 := by
  intro rest
  induction rest with
  | nil =>
    intro s e h p hp
    simp only [fieldsRanges] at hp
    split at hp
    · simp at hp; subst hp; simp; omega
    · simp at hp
  | cons r rest ih =>
    intro s e h p hp
    simp only [fieldsRanges] at hp
    split at hp
    · split at hp
      · simp only [List.mem_cons] at hp
        rcases hp with rfl | hp
        · simp; omega
        · have := ih _ _ (Nat.le_refl _) p hp; omega
      · have := ih _ _ (Nat.le_refl _) p hp; omega
    · exact ih _ _ (by omega) p hp

theorem fieldsRanges_sorted (f : Rune → Bool) : ∀ (rest : List Rune) (s e : Nat), s ≤ e →
    (fieldsRanges f s e rest).Pairwise (fun a b => a.2 < b.1) := by
  intro rest
  induction rest with
  | nil => intro s e h; simp only [fieldsRanges]; split <;> simp
  | cons r rest ih =>
    intro s e h
    simp only [fieldsRanges]
    split
    · split
      · rw [List.pairwise_cons]
        refine ⟨fun p hp => ?_, ih _ _ (Nat.le_refl _)⟩
        have := fieldsRanges_lo f rest _ _ (Nat.le_refl _) p hp
        simp; omega
      · exact ih _ _ (Nat.le_refl _)
    · exact ih _ _ (by omega)

theorem fieldsRanges_mem (f : Rune → Bool) (inp : List Rune) : ∀ (rest pre cur : List Rune),
    inp = pre ++ cur ++ rest →
    (∀ r ∈ cur, f r = false) →
    (pre = [] ∨ ∃ r, inp[pre.length - 1]? = some r ∧ f r = true) →
    ∀ i j, (i, j) ∈ fieldsRanges f pre.length (pre.length + cur.length) rest ↔
      (IsMaxRun f inp i j ∧ pre.length ≤ i) := by
  intro rest
  induction rest with
  | nil =>
    intro pre cur h hcur hpre i j
    have hlen : inp.length = pre.length + cur.length := by simp [h]
    have hget : ∀ k, pre.length ≤ k → k < pre.length + cur.length →
        ∃ r, inp[k]? = some r ∧ f r = false := by
      intro k h1 h2
      refine ⟨cur[k - pre.length]'(by omega), ?_, hcur _ (List.getElem_mem _)⟩
      rw [h, List.append_nil, List.getElem?_append_right h1,
        List.getElem?_eq_getElem (by omega)]
    have hmem : (i, j) ∈ fieldsRanges f pre.length (pre.length + cur.length) [] ↔
        (cur ≠ [] ∧ i = pre.length ∧ j = pre.length + cur.length) := by
      by_cases hc : cur = []
      · simp [fieldsRanges, hc]
      · have : 0 < cur.length := List.length_pos_iff.mpr hc
        simp [fieldsRanges, this, hc]
    rw [hmem]
    constructor
    · rintro ⟨hc, rfl, rfl⟩
      have hpos : 0 < cur.length := List.length_pos_iff.mpr hc
      refine ⟨⟨by omega, by omega, hget, ?_, Or.inl hlen.symm⟩, Nat.le_refl _⟩
      rcases hpre with rfl | h'
      · left; rfl
      · right; exact h'
    · rintro ⟨hm, hle⟩
      have h1 := hm.nonempty
      have h2 := hm.inside
      have hc : cur ≠ [] := by
        intro hc; simp [hc] at hlen; omega
      refine ⟨hc, ?_, ?_⟩
      · rcases hm.leftEdge with h3 | ⟨r, h3, h4⟩
        · omega
        · by_cases hlt : pre.length < i
          · obtain ⟨r', h5, h6⟩ := hget (i-1) (by omega) (by omega)
            rw [h3] at h5; simp only [Option.some.injEq] at h5; subst h5
            rw [h4] at h6; exact absurd h6 (by decide)
          · omega
      · rcases hm.rightEdge with h3 | ⟨r, h3, h4⟩
        · omega
        · have h5 : j < inp.length := by
            apply Decidable.byContradiction; intro hn
            rw [List.getElem?_eq_none (by omega)] at h3; cases h3
          obtain ⟨r', h7, h6⟩ := hget j (by omega) (by omega)
          rw [h3] at h7; simp only [Option.some.injEq] at h7; subst h7
          rw [h4] at h6; exact absurd h6 (by decide)
  | cons r rest ih =>
    intro pre cur h hcur hpre i j
    have hlen : inp.length = pre.length + cur.length + (rest.length + 1) := by simp [h]; omega
    have hget : ∀ k, pre.length ≤ k → k < pre.length + cur.length →
        ∃ r, inp[k]? = some r ∧ f r = false := by
      intro k h1 h2
      refine ⟨cur[k - pre.length]'(by omega), ?_, hcur _ (List.getElem_mem _)⟩
      rw [h, List.append_assoc, List.getElem?_append_right h1,
        List.getElem?_append_left (by omega), List.getElem?_eq_getElem (by omega)]
    have hr0 : inp[pre.length + cur.length]? = some r := by
      rw [h, List.getElem?_append_right (by simp)]
      simp
    have hl : (pre ++ cur ++ [r]).length = pre.length + cur.length + 1 := by simp; omega
    by_cases hr : f r = true
    · have ih' := ih (pre ++ cur ++ [r]) [] (by simp [h]) (by simp)
        (Or.inr ⟨r, by rw [hl]; simpa using hr0, hr⟩) i j
      rw [hl] at ih'
      simp only [List.length_nil, Nat.add_zero] at ih'
      have hmem : (i, j) ∈ fieldsRanges f pre.length (pre.length + cur.length) (r :: rest) ↔
          ((cur ≠ [] ∧ i = pre.length ∧ j = pre.length + cur.length) ∨
            (IsMaxRun f inp i j ∧ pre.length + cur.length + 1 ≤ i)) := by
        by_cases hc : cur = []
        · simp only [fieldsRanges, hr, if_true]
          rw [if_neg (by simp [hc]), ih']
          simp [hc]
        · have : 0 < cur.length := List.length_pos_iff.mpr hc
          simp only [fieldsRanges, hr, if_true]
          rw [if_pos (by omega), List.mem_cons, ih']
          simp [hc]
      rw [hmem]
      constructor
      · rintro (⟨hc, rfl, rfl⟩ | ⟨hm, hle⟩)
        · have hpos : 0 < cur.length := List.length_pos_iff.mpr hc
          refine ⟨⟨by omega, by omega, hget, ?_, Or.inr ⟨r, hr0, hr⟩⟩, Nat.le_refl _⟩
          rcases hpre with rfl | h'
          · left; rfl
          · right; exact h'
        · exact ⟨hm, by omega⟩
      · rintro ⟨hm, hle⟩
        have h1 := hm.nonempty
        by_cases hi : pre.length + cur.length + 1 ≤ i
        · exact Or.inr ⟨hm, hi⟩
        · left
          have hi2 : i ≠ pre.length + cur.length := by
            intro he
            obtain ⟨r', h5, h6⟩ := hm.noSep i (Nat.le_refl _) h1
            rw [he, hr0] at h5; simp only [Option.some.injEq] at h5; subst h5
            rw [hr] at h6; exact absurd h6 (by decide)
          have hj : j ≤ pre.length + cur.length := by
            apply Decidable.byContradiction; intro hn
            obtain ⟨r', h5, h6⟩ := hm.noSep (pre.length + cur.length) (by omega) (by omega)
            rw [hr0] at h5; simp only [Option.some.injEq] at h5; subst h5
            rw [hr] at h6; exact absurd h6 (by decide)
          refine ⟨?_, ?_, ?_⟩
          · intro hc; simp [hc] at hi hi2; omega
          · rcases hm.leftEdge with h3 | ⟨r', h3, h4⟩
            · omega
            · by_cases hlt : pre.length < i
              · obtain ⟨r'', h5, h6⟩ := hget (i-1) (by omega) (by omega)
                rw [h3] at h5; simp only [Option.some.injEq] at h5; subst h5
                rw [h4] at h6; exact absurd h6 (by decide)
              · omega
          · rcases hm.rightEdge with h3 | ⟨r', h3, h4⟩
            · omega
            · by_cases hlt : j < pre.length + cur.length
              · obtain ⟨r'', h5, h6⟩ := hget j (by omega) (by omega)
                rw [h3] at h5; simp only [Option.some.injEq] at h5; subst h5
                rw [h4] at h6; exact absurd h6 (by decide)
              · omega
    · have hr' : f r = false := by simpa using hr
      have ih' := ih pre (cur ++ [r]) (by simp [h])
        (by intro x hx; rcases List.mem_append.mp hx with h' | h'
            · exact hcur x h'
            · simp at h'; subst h'; exact hr') hpre i j
      simp only [fieldsRanges, hr', Bool.false_eq_true, if_false]
      simpa [Nat.add_assoc] using ih'

end Verif.Proofs
