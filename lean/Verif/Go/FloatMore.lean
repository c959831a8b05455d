import Verif.Go.Float64

/-! # More laws of numbers

Laws on any numbers: sums and quotients in the computation of the ratio of a line (linebreak/knuth_plass.go:13-46). -/

namespace Verif.Go

/-- Laws on any numbers, such as negative ones, infinities and NaN for `float64`. -/
class MoreLaws (F : Type) [Arith F] where
  /-- For `float64`, a sum is a negative zero only if both terms are. -/
  add_keep : ∀ x y : F, Arith.add x (Arith.ofInt 0) = x → Arith.add (Arith.add x y) (Arith.ofInt 0) = Arith.add x y
  sub_keep : ∀ x y : F, Arith.add x (Arith.ofInt 0) = x → Arith.add (Arith.sub x y) (Arith.ofInt 0) = Arith.sub x y
  sub_pos : ∀ x y : F, Arith.lt x y = true → Arith.le (Arith.ofInt 0) (Arith.sub y x) = true
  div_pos' : ∀ (x : F) (n : Int), 0 < n → n ≤ 2 ^ 53 → Arith.le (Arith.ofInt 0) x = true →
    Arith.le (Arith.ofInt 0) (Arith.div x (Arith.ofInt n)) = true
  div_anti : ∀ (x : F) (m n : Int), 0 < m → m ≤ n → n ≤ 2 ^ 53 → Arith.le (Arith.ofInt 0) x = true →
    Arith.le (Arith.div x (Arith.ofInt n)) (Arith.div x (Arith.ofInt m)) = true
  div_small : ∀ (x : F) (n : Int), 612 ≤ n → n ≤ 2 ^ 53 → Arith.le (Arith.ofInt 0) x = true →
    Arith.le (Arith.div x (Arith.ofInt 6)) (Arith.ofInt 50) = true →
    Arith.le (Arith.div x (Arith.ofInt n)) (Arith.tenths 5) = true

instance : MoreLaws Rat where
  add_keep := by intro x y _; simp [Arith.add, Arith.ofInt]
  sub_keep := by intro x y _; simp [Arith.add, Arith.ofInt]
  sub_pos := by
    intro x y
    simp only [Arith.lt, Arith.le, Arith.sub, Arith.ofInt, decide_eq_true_eq]
    intro h
    push_cast
    linarith
  div_pos' := by
    intro x n hn _
    simp only [Arith.le, Arith.div, Arith.ofInt, decide_eq_true_eq]
    intro h
    push_cast at h ⊢
    exact div_nonneg h (by exact_mod_cast hn.le)
  div_anti := by
    intro x m n hm hn _
    simp only [Arith.le, Arith.div, Arith.ofInt, decide_eq_true_eq]
    intro h
    push_cast at h
    exact div_le_div_of_nonneg_left h (by exact_mod_cast hm) (by exact_mod_cast hn)
  div_small := by
    intro x n hn _
    simp only [Arith.le, Arith.div, Arith.ofInt, Arith.tenths, decide_eq_true_eq]
    intro h1 h2
    push_cast at h1 h2
    have h3 : (612 : Rat) ≤ (n : Rat) := by exact_mod_cast hn
    rw [div_le_iff₀ (by linarith)]
    push_cast
    linarith

namespace F64

theorem zero_eq : (Arith.ofInt 0 : F64) = fin false 0 isDouble_zero (fun h => absurd rfl h) := by
  rw [ofInt_eq (by decide)]
  exact fin_congr rfl (by norm_num)

theorem keep_iff (s : Bool) (q : Rat) (h1) (h2) : add (fin s q h1 h2) (Arith.ofInt 0) = fin s q h1 h2 ↔ (q = 0 → s = false) := by
  rw [zero_eq]
  simp only [add, Bool.and_false, add_zero]
  obtain ⟨t, hs, e1, e2, e3⟩ := pack_double h1 false
  rw [e1]
  constructor
  · intro h h0
    have : t = s := by injection h
    rw [← this, e2 h0]
  · intro h
    refine fin_congr ?_ rfl
    by_cases h0 : q = 0
    · rw [e2 h0, h h0]
    · rw [e3 h0, h2 h0]

theorem keep_pack (s : Bool) (q : Rat) (h : roundDouble q = 0 → s = false) : add (pack s q) (Arith.ofInt 0) = pack s q := by
  rcases pack_cases s q with ⟨_, a2, a3, a4⟩ | ⟨_, a4⟩ | ⟨_, a4⟩
  · rw [a4, keep_iff]
    intro h0
    rw [if_pos h0, h h0]
  · rw [a4, zero_eq]; rfl
  · rw [a4, zero_eq]; rfl

theorem add_keep' (x y : F64) (h : add x (Arith.ofInt 0) = x) : add (add x y) (Arith.ofInt 0) = add x y := by
  cases x with
  | nan => rw [zero_eq]; rfl
  | inf s =>
    cases y with
    | nan => rw [zero_eq]; rfl
    | inf t => rw [zero_eq]; cases s <;> cases t <;> rfl
    | fin t q _ _ => rw [zero_eq]; rfl
  | fin s p h1 h2 =>
    rw [keep_iff] at h
    cases y with
    | nan => rw [zero_eq]; rfl
    | inf t => rw [zero_eq]; rfl
    | fin t q h3 h4 =>
      refine keep_pack _ _ (fun h0 => ?_)
      cases s with
      | false => rfl
      | true =>
        cases t with
        | false => rfl
        | true =>
          exfalso
          have hp0 : p ≠ 0 := fun e => by cases h e
          have hp : p < 0 := of_decide_eq_true (h2 hp0).symm
          have hq : q ≤ 0 := by
            by_cases e : q = 0
            · rw [e]
            · exact (of_decide_eq_true (h4 e).symm).le
          have h5 := roundDouble_mono (show p + q ≤ p by linarith)
          rw [h0, roundDouble_exact (isDouble_wide h1)] at h5
          linarith

theorem pos_cases {x : F64} (h : le (Arith.ofInt 0) x = true) :
    x = inf false ∨ ∃ s q h1 h2, x = fin s q h1 h2 ∧ 0 ≤ q := by
  rw [zero_eq] at h
  cases x with
  | nan => cases h
  | inf s => cases s <;> first | exact Or.inl rfl | cases h
  | fin s q h1 h2 => exact Or.inr ⟨s, q, h1, h2, rfl, of_decide_eq_true h⟩

theorem div_by {s : Bool} {q : Rat} {h1 h2} {n : Int} (hn : 0 < n) (hn' : n ≤ 2 ^ 53) :
    ∃ t, div (fin s q h1 h2) (Arith.ofInt n) = pack t (q / n) := by
  rw [ofInt_eq (by rwa [abs_of_pos hn])]
  simp only [div]
  rw [if_neg (by have : n ≠ 0 := by omega
                 exact_mod_cast this)]
  exact ⟨_, rfl⟩

theorem inf_by {n : Int} (hn : 0 < n) (hn' : n ≤ 2 ^ 53) : div (inf false) (Arith.ofInt n) = inf false := by
  rw [ofInt_eq (by rwa [abs_of_pos hn])]
  simp only [div]
  rw [decide_eq_false (by omega : ¬ n < 0)]
  rfl

/-- The laws hold for `float64`. -/
instance : MoreLaws F64 where
  add_keep := add_keep'
  sub_keep := fun x y h => add_keep' x (neg y) h
  sub_pos := by
    intro x y h
    change lt x y = true at h
    show le _ (add y (neg x)) = true
    cases x with
    | nan => cases h
    | inf s =>
      cases s with
      | false => cases y <;> first | (cases h; done) | (rename_i t; cases t <;> cases h)
      | true =>
        cases y with
        | nan => cases h
        | inf t => cases t <;> first | (cases h; done) | (rw [zero_eq]; rfl)
        | fin t q _ _ => rw [zero_eq]; rfl
    | fin s p h1 h2 =>
      cases y with
      | nan => cases h
      | inf t => cases t <;> first | (cases h; done) | (rw [zero_eq]; rfl)
      | fin t q _ _ =>
        have h : p < q := of_decide_eq_true h
        rw [ofInt_def]
        exact pack_mono (by push_cast; linarith) _ _
  div_pos' := by
    intro x n hn hn' h
    rcases pos_cases h with rfl | ⟨s, q, h1, h2, rfl, h3⟩
    · show le _ (div (inf false) _) = true
      rw [inf_by hn hn', zero_eq]; rfl
    · show le _ (div (fin s q h1 h2) _) = true
      obtain ⟨t, e⟩ := div_by (s := s) (q := q) (h1 := h1) (h2 := h2) hn hn'
      rw [e, ofInt_def]
      exact pack_mono (by push_cast; exact div_nonneg h3 (by exact_mod_cast hn.le)) _ _
  div_anti := by
    intro x m n hm hn hn' h
    rcases pos_cases h with rfl | ⟨s, q, h1, h2, rfl, h3⟩
    · show le (div (inf false) _) (div (inf false) _) = true
      rw [inf_by (by omega) (by omega), inf_by (by omega) (by omega)]; rfl
    · show le (div (fin s q h1 h2) _) (div (fin s q h1 h2) _) = true
      obtain ⟨t, e⟩ := div_by (s := s) (q := q) (h1 := h1) (h2 := h2) (n := n) (by omega) hn'
      obtain ⟨t', e'⟩ := div_by (s := s) (q := q) (h1 := h1) (h2 := h2) (n := m) hm (by omega)
      rw [e, e']
      exact pack_mono (div_le_div_of_nonneg_left h3 (by exact_mod_cast hm) (by exact_mod_cast hn)) _ _
  div_small := by
    intro x n hn hn' h h'
    rcases pos_cases h with rfl | ⟨s, q, h1, h2, rfl, h3⟩
    · change le (div (inf false) _) _ = true at h'
      rw [inf_by (by decide) (by decide), ofInt_eq (by decide)] at h'
      cases h'
    · change le (div (fin s q h1 h2) _) _ = true at h'
      show le (div (fin s q h1 h2) _) _ = true
      obtain ⟨t, e⟩ := div_by (s := s) (q := q) (h1 := h1) (h2 := h2) (n := n) (by omega) hn'
      obtain ⟨t', e'⟩ := div_by (s := s) (q := q) (h1 := h1) (h2 := h2) (n := 6) (by decide) (by decide)
      rw [e, tenths_def]
      rw [e'] at h'
      have hq : q / 6 ≤ 51 := by
        by_contra hc
        have h4 : le (Arith.ofInt 51) (pack t' (q / (6 : Int))) = true := by
          rw [ofInt_def]
          exact pack_mono (by push_cast; linarith) _ _
        have h5 := le_trans' h4 h'
        rw [ofInt_eq (by decide), ofInt_eq (by decide)] at h5
        have h6 : ((51 : Int) : Rat) ≤ ((50 : Int) : Rat) := of_decide_eq_true h5
        norm_num at h6
      have h4 : (612 : Rat) ≤ (n : Rat) := by exact_mod_cast hn
      refine pack_mono ?_ _ _
      rw [div_le_iff₀ (by linarith)]
      push_cast
      linarith

end F64

end Verif.Go
