import Verif.Model.Width
import Verif.Spec.Width

namespace Verif.Proofs
open Verif.Go Verif.Model Verif.Spec

/-! ## Binary search -/

theorem inTableLoop_spec (r : Rune) (t : List (Rune × Rune)) (hs : SortedRanges t) :
    ∀ (fuel : Nat) (bot top : Int), 0 ≤ bot → bot ≤ top + 1 → top < t.length → top - bot + 1 < fuel →
      (∀ (i : Nat) iv, t[i]? = some iv → (i : Int) < bot → iv.2 < r) →
      (∀ (i : Nat) iv, t[i]? = some iv → top < (i : Int) → r < iv.1) →
      inTableLoop r t fuel bot top = .ok (decide (InRanges t r)) := by
  intro fuel
  induction fuel with
  | zero => intro bot top h1 h2 h3 h4; omega
  | succ fuel ih =>
    intro bot top h1 h2 h3 hf h4 h5
    unfold inTableLoop
    by_cases hb : top ≥ bot
    · rw [if_pos hb]
      have hm0 : 0 ≤ (bot + top) / 2 := by omega
      obtain ⟨m, hm⟩ := Int.eq_ofNat_of_zero_le hm0
      have hml : m < t.length := by omega
      simp only [hm]
      rw [index_ok hml]
      simp only [ok_bind]
      have hget : t[m]? = some t[m] := List.getElem?_eq_getElem hml
      have hord : ∀ (i j : Nat) a b, t[i]? = some a → t[j]? = some b → i < j → a.2 < b.1 := by
        intro i j a b ha hb hij
        obtain ⟨hi, rfl⟩ := List.getElem?_eq_some_iff.mp ha
        obtain ⟨hj, rfl⟩ := List.getElem?_eq_some_iff.mp hb
        exact (List.pairwise_iff_getElem.mp hs.2) i j hi hj hij
      have hwf : ∀ (i : Nat) a, t[i]? = some a → a.1 ≤ a.2 := fun i a ha => hs.1 a (List.mem_of_getElem? ha)
      by_cases c1 : t[m].2 < r
      · rw [if_pos c1]
        apply ih
        · omega
        · omega
        · exact h3
        · omega
        · intro i iv hi hlt
          rcases Nat.lt_or_ge i m with h | h
          · have := hord i m iv t[m] hi hget h
            have := hwf m _ hget
            omega
          · have : i = m := by omega
            subst this; rw [hget] at hi; cases hi; exact c1
        · exact h5
      · rw [if_neg c1]
        by_cases c2 : t[m].1 > r
        · rw [if_pos c2]
          apply ih
          · exact h1
          · omega
          · omega
          · omega
          · exact h4
          · intro i iv hi hlt
            rcases Nat.lt_or_ge m i with h | h
            · have := hord m i t[m] iv hget hi h
              have := hwf m _ hget
              omega
            · have : i = m := by omega
              subst this; rw [hget] at hi; cases hi; exact c2
        · rw [if_neg c2]
          have : InRanges t r := ⟨t[m], List.getElem_mem hml, by omega, by omega⟩
          simp [this]
    · rw [if_neg hb]
      have hno : ¬ InRanges t r := by
        rintro ⟨iv, hm, ha, hb'⟩
        obtain ⟨i, hi⟩ := List.mem_iff_getElem?.mp hm
        by_cases hc : (i : Int) < bot
        · have := h4 i iv hi hc; omega
        · have := h5 i iv hi (by omega); omega
      simp [hno]

/-- inTable finds a rune iff one of the intervals contains it. -/
theorem inTable_spec (r : Rune) (t : List (Rune × Rune)) (hne : t ≠ []) (hs : SortedRanges t) :
    inTable r t = .ok (decide (InRanges t r)) := by
  unfold inTable
  have hlen : 0 < t.length := List.length_pos_iff.mpr hne
  have h0 : index t 0 = .ok t[0] := index_ok hlen
  rw [h0]
  simp only [ok_bind]
  by_cases c : r < t[0].1
  · rw [if_pos c]
    have hno : ¬ InRanges t r := by
      rintro ⟨iv, hm, ha, hb⟩
      obtain ⟨i, hi, rfl⟩ := List.mem_iff_getElem.mp hm
      rcases Nat.eq_zero_or_pos i with h | h
      · subst h; omega
      · have := (List.pairwise_iff_getElem.mp hs.2) 0 i hlen hi h
        have := hs.1 t[0] (List.getElem_mem hlen)
        omega
    simp [hno]
  · rw [if_neg c]
    apply inTableLoop_spec r t hs
    · omega
    · omega
    · omega
    · omega
    · intro i iv _ h; omega
    · intro i iv hi h
      have : i < t.length := by
        rw [List.getElem?_eq_some_iff] at hi; exact hi.1
      omega

/-! ## The shipped tables -/

instance (t : List (Rune × Rune)) : Decidable (SortedRanges t) :=
  inferInstanceAs (Decidable ((∀ iv ∈ t, iv.1 ≤ iv.2) ∧ t.Pairwise (fun a b => a.2 < b.1)))

theorem sorted_nonprint : SortedRanges nonprint := by decide +kernel
theorem sorted_combining : SortedRanges combining := by decide +kernel
theorem sorted_narrow : SortedRanges narrow := by decide +kernel
theorem sorted_emoji : SortedRanges emoji := by decide +kernel
theorem sorted_doublewidth : SortedRanges doublewidth := by decide +kernel
theorem sorted_ambiguous : SortedRanges ambiguous := by decide +kernel

theorem inTable_nonprint (r : Rune) : inTable r nonprint = .ok (decide (InRanges nonprint r)) :=
  inTable_spec r _ (by simp [nonprint]) sorted_nonprint
theorem inTable_combining (r : Rune) : inTable r combining = .ok (decide (InRanges combining r)) :=
  inTable_spec r _ (by simp [combining]) sorted_combining
theorem inTable_narrow (r : Rune) : inTable r narrow = .ok (decide (InRanges narrow r)) :=
  inTable_spec r _ (by simp [narrow]) sorted_narrow
theorem inTable_emoji (r : Rune) : inTable r emoji = .ok (decide (InRanges emoji r)) :=
  inTable_spec r _ (by simp [emoji]) sorted_emoji
theorem inTable_doublewidth (r : Rune) : inTable r doublewidth = .ok (decide (InRanges doublewidth r)) :=
  inTable_spec r _ (by simp [doublewidth]) sorted_doublewidth
theorem inTable_ambiguous (r : Rune) : inTable r ambiguous = .ok (decide (InRanges ambiguous r)) :=
  inTable_spec r _ (by simp [ambiguous]) sorted_ambiguous

/-- Two tables have no rune in common. -/
def Disjoint (s t : List (Rune × Rune)) : Prop := ∀ a ∈ s, ∀ b ∈ t, a.2 < b.1 ∨ b.2 < a.1

instance (s t : List (Rune × Rune)) : Decidable (Disjoint s t) :=
  inferInstanceAs (Decidable (∀ a ∈ s, ∀ b ∈ t, a.2 < b.1 ∨ b.2 < a.1))

theorem Disjoint.no {s t : List (Rune × Rune)} (h : Disjoint s t) {r : Rune} (h1 : InRanges s r) :
    ¬ InRanges t r := by
  rintro ⟨b, hb, hb1, hb2⟩
  obtain ⟨a, ha, ha1, ha2⟩ := h1
  rcases h a ha b hb with h | h <;> omega

theorem narrow_doublewidth : Disjoint narrow doublewidth := by decide +kernel
theorem narrow_ambiguous : Disjoint narrow ambiguous := by decide +kernel
theorem narrow_emoji : Disjoint narrow emoji := by decide +kernel
theorem doublewidth_ambiguous : Disjoint doublewidth ambiguous := by decide +kernel

theorem not_InRanges_lt {t : List (Rune × Rune)} {n : Rune} (h : ∀ a ∈ t, n ≤ a.1) {r : Rune} (hr : r < n) :
    ¬ InRanges t r := by
  rintro ⟨a, ha, h1, _⟩
  have := h a ha; omega

theorem validRune_iff (r : Rune) : validRune r = true ↔ IsScalar r := by
  unfold validRune IsScalar
  simp only [Bool.or_eq_true, Bool.and_eq_true, decide_eq_true_eq]
  omega

theorem nonprint_control {r : Rune} (h0 : 0 ≤ r) (h : r < 0x20 ∨ (0x7F ≤ r ∧ r ≤ 0x9F) ∨ r = 0xAD) :
    InRanges nonprint r := by
  rcases h with h | h | h
  · exact ⟨(0x0000, 0x001F), by simp [nonprint], h0, by simp; omega⟩
  · exact ⟨(0x7F, 0x9F), by simp [nonprint], h.1, h.2⟩
  · exact ⟨(0xAD, 0xAD), by simp [nonprint], by simp; omega, by simp; omega⟩

theorem nonprint_low {r : Rune} (hr : r < 0x300) (h : InRanges nonprint r) :
    r < 0x20 ∨ (0x7F ≤ r ∧ r ≤ 0x9F) ∨ r = 0xAD := by
  obtain ⟨iv, hm, h1, h2⟩ := h
  simp only [nonprint, List.mem_cons, List.not_mem_nil, or_false] at hm
  rcases hm with h | h | h | h | h | h | h | h | h | h | h | h <;> subst h <;> simp only at h1 h2 <;> omega

/-- runeWidth computes the specification. -/
theorem runeWidth_spec (r : Rune) (o : WOptions) :
    runeWidth r o =
      .ok (displayWidth o.eastAsian o.skipStrictEmojiNeutral o.ambiguousWidth r) := by
  unfold runeWidth displayWidth
  by_cases h1 : (!validRune r || r == runeError) = true
  · rw [if_pos h1]
    rw [if_pos]
    · rfl
    · simp only [Bool.or_eq_true, Bool.not_eq_true', beq_iff_eq] at h1
      rcases h1 with h1 | h1
      · left; rw [← validRune_iff, h1]; simp
      · right; exact h1
  rw [if_neg h1]
  simp only [Bool.or_eq_true, Bool.not_eq_true', beq_iff_eq, not_or, Bool.not_eq_false] at h1
  have hsc : IsScalar r := (validRune_iff r).mp h1.1
  have h0 : 0 ≤ r := hsc.1
  have hgood : ¬ (¬ IsScalar r ∨ r = 0xFFFD) := by
    rintro (h | h)
    · exact h hsc
    · exact h1.2 h
  simp only [if_neg hgood]
  by_cases h2 : r < 0x20
  · rw [if_pos h2, if_pos (Or.inl (nonprint_control h0 (Or.inl h2)))]; rfl
  rw [if_neg h2]
  by_cases h3 : (r ≥ 0x7F && r ≤ 0x9F || r == 0xAD) = true
  · rw [if_pos h3]
    simp only [Bool.or_eq_true, Bool.and_eq_true, decide_eq_true_eq, beq_iff_eq] at h3
    rw [if_pos (Or.inl (nonprint_control h0 (Or.inr h3)))]; rfl
  rw [if_neg h3]
  simp only [Bool.or_eq_true, Bool.and_eq_true, decide_eq_true_eq, beq_iff_eq, not_or] at h3
  by_cases h4 : (r < 0x300 && !o.eastAsian) = true
  · rw [if_pos h4]
    simp only [Bool.and_eq_true, decide_eq_true_eq, Bool.not_eq_true'] at h4
    have n1 : ¬ InRanges nonprint r := fun h => by
      have := nonprint_low h4.1 h; omega
    have n2 : ¬ InRanges combining r := not_InRanges_lt (n := 0x300) (by decide +kernel) h4.1
    have n3 : ¬ InRanges doublewidth r := not_InRanges_lt (n := 0x300) (by decide +kernel) h4.1
    rw [if_neg (by simp [n1, n2]), if_neg (by omega), if_neg (by omega), if_neg n3]
    simp [h4.2]
  rw [if_neg h4]
  have e1 : ¬ InRanges nonprint 0x2E3B := by decide +kernel
  have e2 : ¬ InRanges combining 0x2E3B := by decide +kernel
  have e3 : ¬ InRanges nonprint 0x2E3A := by decide +kernel
  have e4 : ¬ InRanges combining 0x2E3A := by decide +kernel
  by_cases h5 : r = 0x2E3B
  · subst h5; simp [e1, e2]
  by_cases h6 : r = 0x2E3A
  · subst h6; simp [e3, e4]
  simp only [beq_iff_eq, h5, h6, if_false, inTables, inTable_nonprint, inTable_combining, inTable_narrow,
    inTable_doublewidth, inTable_ambiguous, inTable_emoji, ok_bind, pure_eq_ok]
  by_cases a1 : InRanges nonprint r
  · simp [a1]
  by_cases a2 : InRanges combining r
  · simp [a1, a2]
  by_cases a3 : InRanges narrow r
  · have b1 := narrow_doublewidth.no a3
    have b2 := narrow_ambiguous.no a3
    have b3 := narrow_emoji.no a3
    simp [a1, a2, a3, b1, b2, b3]
  by_cases a4 : InRanges doublewidth r
  · simp [a1, a2, a3, a4]
  cases he : o.eastAsian
  · simp [a1, a2, a3, a4]
  by_cases a5 : InRanges ambiguous r
  · simp [a1, a2, a3, a4, a5]
  cases hk : o.skipStrictEmojiNeutral
  · simp [a1, a2, a3, a4, a5]
  by_cases a6 : InRanges emoji r <;> simp [a1, a2, a3, a4, a5, a6]

end Verif.Proofs
