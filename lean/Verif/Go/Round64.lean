import Mathlib.Algebra.Order.Floor.Ring
import Mathlib.Algebra.Order.Field.Power
import Mathlib.Data.Rat.Floor
import Mathlib.Tactic.Linarith
import Mathlib.Tactic.Ring
import Mathlib.Tactic.NormNum

/-! # Rounding of rational numbers to 64-bit floating-point numbers

`IsDouble` says which rationals are finite `float64` values, as in IEEE 754: `m * 2^e` with `|m| < 2^53` and
`-1074 ≤ e ≤ 971`. `roundDouble` rounds to the nearest one, ties to even, without regard for overflow; that it does is
proved in `nearest` and `tie_even`. -/

namespace Verif.Go.F64

/-- Powers of two, in a form that computes. -/
def pow2 (e : Int) : Rat := if 0 ≤ e then ((2 ^ e.toNat : Nat) : Rat) else mkRat 1 (2 ^ (-e).toNat)

/-- The nearest integer; a half goes to the even neighbour. -/
def rne (q : Rat) : Int :=
  let f := q.floor
  if q - f < mkRat 1 2 then f else if mkRat 1 2 < q - f then f + 1 else if f % 2 = 0 then f else f + 1

/-- The magnitude of a rational other than 0: `2 ^ ilog2 q ≤ |q| < 2 ^ (ilog2 q + 1)`. -/
def ilog2 (q : Rat) : Int :=
  let k : Int := (q.num.natAbs.log2 : Int) - (q.den.log2 : Int)
  if pow2 k ≤ mkRat q.num.natAbs q.den then k else k - 1

/-- Rounding to a multiple of a power of two. -/
def roundAt (e : Int) (q : Rat) : Rat := (rne (q / pow2 e) : Rat) * pow2 e

/-- The exponent of the last place of a rational, with 53 binary digits. -/
def place53 (q : Rat) : Int := ilog2 q - 52

/-- The exponent of the last place of a `float64` near a rational. -/
def place (q : Rat) : Int := max (ilog2 q - 52) (-1074)

/-- Rounding to 53 binary digits. -/
def round53 (q : Rat) : Rat := if q = 0 then 0 else roundAt (place53 q) q

/-- Rounding to 53 binary digits, or fewer for numbers near 0. -/
def roundDouble (q : Rat) : Rat := if q = 0 then 0 else roundAt (place q) q

/-- The greatest finite value. -/
def maxDouble : Rat := ((2 ^ 1024 - 2 ^ 971 : Nat) : Rat)

/-- The finite `float64` values. -/
def IsDouble (q : Rat) : Prop := ∃ m e : Int, |m| < 2 ^ 53 ∧ -1074 ≤ e ∧ e ≤ 971 ∧ q = m * (2 : Rat) ^ e

/-- The same without bound on the magnitude. -/
def IsWide (q : Rat) : Prop := ∃ m e : Int, |m| < 2 ^ 53 ∧ -1074 ≤ e ∧ q = m * (2 : Rat) ^ e

theorem pow2_eq (e : Int) : pow2 e = (2 : Rat) ^ e := by
  unfold pow2
  split
  · rename_i h
    obtain ⟨n, rfl⟩ := Int.eq_ofNat_of_zero_le h
    simp
  · rename_i h
    obtain ⟨n, hn⟩ := Int.eq_ofNat_of_zero_le (show 0 ≤ -e by omega)
    have : e = -(n : Int) := by omega
    subst this
    rw [Rat.mkRat_eq_div]
    simp [zpow_neg]

theorem two_pos (e : Int) : (0 : Rat) < (2 : Rat) ^ e := zpow_pos (by norm_num) e

theorem two_le {a b : Int} (h : a ≤ b) : (2 : Rat) ^ a ≤ (2 : Rat) ^ b := zpow_le_zpow_right₀ (by norm_num) h

theorem two_lt {a b : Int} (h : a < b) : (2 : Rat) ^ a < (2 : Rat) ^ b := zpow_lt_zpow_right₀ (by norm_num) h

theorem lt_of_two_lt {a b : Int} (h : (2 : Rat) ^ a < (2 : Rat) ^ b) : a < b := by
  by_contra hc
  exact absurd h (not_lt.mpr (two_le (by omega)))

theorem two_add (a b : Int) : (2 : Rat) ^ (a + b) = (2 : Rat) ^ a * (2 : Rat) ^ b := zpow_add₀ (by norm_num) a b

theorem rne_spec (q : Rat) : |(rne q : Rat) - q| ≤ 1 / 2 := by
  have h1 : ((q.floor : Int) : Rat) ≤ q := Int.floor_le q
  have h2 : q < (q.floor : Int) + 1 := Int.lt_floor_add_one q
  have e : (mkRat 1 2 : Rat) = 1 / 2 := by rw [Rat.mkRat_eq_div]; norm_num
  unfold rne
  simp only [e]
  split
  · rw [abs_le]; constructor <;> linarith
  · rename_i h3
    split
    · rw [abs_le]; push_cast; constructor <;> linarith
    · split
      · rw [abs_le]; constructor <;> linarith
      · rw [abs_le]; push_cast; constructor <;> linarith

/-- Ties go to even integers. -/
theorem rne_even (q : Rat) (h : |(rne q : Rat) - q| = 1 / 2) : 2 ∣ rne q := by
  have h1 : ((q.floor : Int) : Rat) ≤ q := Int.floor_le q
  have h2 : q < (q.floor : Int) + 1 := Int.lt_floor_add_one q
  have e : (mkRat 1 2 : Rat) = 1 / 2 := by rw [Rat.mkRat_eq_div]; norm_num
  unfold rne at h ⊢
  simp only [e] at h ⊢
  split at h
  · rename_i h3
    rw [abs_sub_comm, abs_of_nonneg (by linarith)] at h
    linarith
  · rename_i h3
    split at h
    · rename_i h4
      push_cast at h
      rw [abs_of_nonneg (by linarith)] at h
      linarith
    · rename_i h4
      rw [if_neg h3, if_neg h4]
      split <;> omega

theorem rne_int (n : Int) : rne (n : Rat) = n := by
  have h := rne_spec (n : Rat)
  rw [abs_le] at h
  have h1 : ((rne (n : Rat) : Int) : Rat) < ((n + 1 : Int) : Rat) := by push_cast; linarith
  have h2 : ((n - 1 : Int) : Rat) < ((rne (n : Rat) : Int) : Rat) := by push_cast; linarith
  have h1 := Rat.intCast_lt_intCast.mp h1
  have h2 := Rat.intCast_lt_intCast.mp h2
  omega

/-- Rounding does not pass an integer. -/
theorem rne_le_int {q : Rat} {n : Int} (h : q ≤ n) : rne q ≤ n := by
  have h1 := rne_spec q
  rw [abs_le] at h1
  have : ((rne q : Int) : Rat) < ((n + 1 : Int) : Rat) := by push_cast; linarith
  have := Rat.intCast_lt_intCast.mp this
  omega

theorem int_le_rne {q : Rat} {n : Int} (h : (n : Rat) ≤ q) : n ≤ rne q := by
  have h1 := rne_spec q
  rw [abs_le] at h1
  have : ((n - 1 : Int) : Rat) < ((rne q : Int) : Rat) := by push_cast; linarith
  have := Rat.intCast_lt_intCast.mp this
  omega

theorem rne_mono {p q : Rat} (h : p ≤ q) : rne p ≤ rne q := by
  by_contra hc
  have h1 := rne_spec p
  have h2 := rne_spec q
  have h3 : rne q + 1 ≤ rne p := by omega
  have h3' : ((rne q : Int) : Rat) + 1 ≤ ((rne p : Int) : Rat) := by exact_mod_cast h3
  have h1' := abs_le.mp h1
  have h2' := abs_le.mp h2
  have : p = q := by linarith
  subst this
  omega

theorem rne_neg (q : Rat) : rne (-q) = -rne q := by
  have h1 := abs_le.mp (rne_spec q)
  have h2 := abs_le.mp (rne_spec (-q))
  have a1 : ((rne (-q) : Int) : Rat) ≤ ((-rne q + 1 : Int) : Rat) := by push_cast; linarith
  have a2 : ((-rne q - 1 : Int) : Rat) ≤ ((rne (-q) : Int) : Rat) := by push_cast; linarith
  have a1 := Rat.intCast_le_intCast.mp a1
  have a2 := Rat.intCast_le_intCast.mp a2
  rcases (show rne (-q) = -rne q ∨ rne (-q) = -rne q + 1 ∨ rne (-q) = -rne q - 1 by omega) with h | h | h
  · exact h
  · exfalso
    rw [h] at h2
    push_cast at h2
    have e1 : ((rne q : Int) : Rat) - q = 1 / 2 := by linarith
    have b1 := rne_even q (by rw [e1, abs_of_pos (by norm_num)])
    have e2 : ((rne (-q) : Int) : Rat) - (-q) = 1 / 2 := by rw [h]; push_cast; linarith
    have b2 := rne_even (-q) (by rw [e2, abs_of_pos (by norm_num)])
    omega
  · exfalso
    rw [h] at h2
    push_cast at h2
    have e1 : ((rne q : Int) : Rat) - q = -(1 / 2) := by linarith
    have b1 := rne_even q (by rw [e1, abs_neg, abs_of_pos (by norm_num)])
    have e2 : ((rne (-q) : Int) : Rat) - (-q) = -(1 / 2) := by rw [h]; push_cast; linarith
    have b2 := rne_even (-q) (by rw [e2, abs_neg, abs_of_pos (by norm_num)])
    omega

/-! ## The magnitude -/

theorem abs_eq_mkRat (q : Rat) : mkRat q.num.natAbs q.den = |q| := by
  rw [Rat.mkRat_eq_div]
  conv_rhs => rw [← Rat.num_div_den q]
  rw [abs_div]
  congr 1
  · rw [show ((q.num.natAbs : Int) : Rat) = ((|q.num| : Int) : Rat) by rw [Int.abs_eq_natAbs], Int.cast_abs]
  · rw [Nat.abs_cast]

theorem log2_spec (n : Nat) (h : n ≠ 0) : (2 : Rat) ^ (n.log2 : Int) ≤ n ∧ (n : Rat) < (2 : Rat) ^ ((n.log2 : Int) + 1) := by
  have h1 := Nat.log2_self_le h
  have h2 := Nat.lt_log2_self (n := n)
  constructor
  · rw [zpow_natCast]; exact_mod_cast h1
  · rw [show ((n.log2 : Int) + 1) = ((n.log2 + 1 : Nat) : Int) by push_cast; rfl, zpow_natCast]; exact_mod_cast h2

theorem ilog2_spec (q : Rat) (h : q ≠ 0) : (2 : Rat) ^ ilog2 q ≤ |q| ∧ |q| < (2 : Rat) ^ (ilog2 q + 1) := by
  have hn : q.num.natAbs ≠ 0 := by
    rw [Int.natAbs_ne_zero]
    exact Rat.num_ne_zero.mpr h
  obtain ⟨a1, a2⟩ := log2_spec q.num.natAbs hn
  obtain ⟨b1, b2⟩ := log2_spec q.den q.den_ne_zero
  have hq : |q| = (q.num.natAbs : Rat) / (q.den : Rat) := by
    rw [← abs_eq_mkRat, Rat.mkRat_eq_div, Int.cast_natCast]
  have hd : (0 : Rat) < q.den := by exact_mod_cast q.den_pos
  generalize hA : (q.num.natAbs.log2 : Int) = A at a1 a2
  generalize hB : (q.den.log2 : Int) = B at b1 b2
  have u1 : |q| < (2 : Rat) ^ (A - B + 1) := by
    rw [hq, div_lt_iff₀ hd]
    calc (q.num.natAbs : Rat) < (2 : Rat) ^ (A + 1) := a2
      _ = (2 : Rat) ^ (A - B + 1) * (2 : Rat) ^ B := by rw [← two_add]; congr 1; ring
      _ ≤ _ := mul_le_mul_of_nonneg_left b1 (two_pos _).le
  have u2 : (2 : Rat) ^ (A - B - 1) ≤ |q| := by
    rw [hq, le_div_iff₀ hd]
    calc (2 : Rat) ^ (A - B - 1) * (q.den : Rat) ≤ (2 : Rat) ^ (A - B - 1) * (2 : Rat) ^ (B + 1) :=
          mul_le_mul_of_nonneg_left b2.le (two_pos _).le
      _ = (2 : Rat) ^ A := by rw [← two_add]; congr 1; ring
      _ ≤ _ := a1
  unfold ilog2
  simp only [hA, hB, pow2_eq, abs_eq_mkRat]
  split
  · exact ⟨by assumption, u1⟩
  · rename_i h3
    exact ⟨u2, by rw [show A - B - 1 + 1 = A - B by ring]; exact not_le.mp h3⟩

theorem ilog2_unique {q : Rat} {k : Int} (h : q ≠ 0) (h1 : (2 : Rat) ^ k ≤ |q|) (h2 : |q| < (2 : Rat) ^ (k + 1)) : ilog2 q = k := by
  obtain ⟨a, b⟩ := ilog2_spec q h
  have c1 := lt_of_two_lt (lt_of_le_of_lt h1 b)
  have c2 := lt_of_two_lt (lt_of_le_of_lt a h2)
  omega

theorem ilog2_neg (q : Rat) (h : q ≠ 0) : ilog2 (-q) = ilog2 q := by
  obtain ⟨a, b⟩ := ilog2_spec q h
  exact ilog2_unique (neg_ne_zero.mpr h) (by rwa [abs_neg]) (by rwa [abs_neg])

theorem ilog2_mono {p q : Rat} (hp : 0 < p) (h : p ≤ q) : ilog2 p ≤ ilog2 q := by
  obtain ⟨a, _⟩ := ilog2_spec p hp.ne'
  obtain ⟨_, b⟩ := ilog2_spec q (hp.trans_le h).ne'
  rw [abs_of_pos hp] at a
  rw [abs_of_pos (hp.trans_le h)] at b
  have := lt_of_two_lt (lt_of_le_of_lt (a.trans h) b)
  omega

/-! ## Rounding -/

theorem roundAt_le {e : Int} {q : Rat} {n : Int} (h : q ≤ n * (2 : Rat) ^ e) : roundAt e q ≤ n * (2 : Rat) ^ e := by
  unfold roundAt
  rw [pow2_eq]
  refine mul_le_mul_of_nonneg_right ?_ (two_pos e).le
  exact_mod_cast rne_le_int ((div_le_iff₀ (two_pos e)).mpr h)

theorem le_roundAt {e : Int} {q : Rat} {n : Int} (h : n * (2 : Rat) ^ e ≤ q) : n * (2 : Rat) ^ e ≤ roundAt e q := by
  unfold roundAt
  rw [pow2_eq]
  refine mul_le_mul_of_nonneg_right ?_ (two_pos e).le
  exact_mod_cast int_le_rne ((le_div_iff₀ (two_pos e)).mpr h)

theorem roundAt_mono {e : Int} {p q : Rat} (h : p ≤ q) : roundAt e p ≤ roundAt e q := by
  unfold roundAt
  rw [pow2_eq]
  refine mul_le_mul_of_nonneg_right ?_ (two_pos e).le
  exact_mod_cast rne_mono (div_le_div_of_nonneg_right h (two_pos e).le)

theorem roundAt_neg (e : Int) (q : Rat) : roundAt e (-q) = -roundAt e q := by
  unfold roundAt
  rw [neg_div, rne_neg]
  push_cast
  ring

theorem roundAt_near (e : Int) (q : Rat) : |roundAt e q - q| ≤ (2 : Rat) ^ e / 2 := by
  unfold roundAt
  rw [pow2_eq]
  have h := rne_spec (q / (2 : Rat) ^ e)
  have e1 : (rne (q / (2 : Rat) ^ e) : Rat) * (2 : Rat) ^ e - q =
      ((rne (q / (2 : Rat) ^ e) : Rat) - q / (2 : Rat) ^ e) * (2 : Rat) ^ e := by
    rw [sub_mul, div_mul_cancel₀ _ (two_pos e).ne']
  rw [e1, abs_mul, abs_of_pos (two_pos e)]
  have := mul_le_mul_of_nonneg_right h (two_pos e).le
  linarith

theorem roundAt_exact {e : Int} {q : Rat} {n : Int} (h : q = n * (2 : Rat) ^ e) : roundAt e q = q := by
  unfold roundAt
  rw [pow2_eq, h, mul_div_assoc, div_self (two_pos e).ne', _root_.mul_one, rne_int]

theorem place_neg (q : Rat) (h : q ≠ 0) : place (-q) = place q := by unfold place; rw [ilog2_neg q h]

theorem place_low (q : Rat) : -1074 ≤ place q := le_max_right _ _

/-- A rational is below 53 digits from its last place. -/
theorem lt_place {q : Rat} (h : q ≠ 0) : |q| < (2 : Rat) ^ (53 + place q) := by
  refine lt_of_lt_of_le (ilog2_spec q h).2 (two_le ?_)
  have : ilog2 q - 52 ≤ place q := le_max_left _ _
  omega

theorem place_le {q : Rat} (h : q ≠ 0) (hp : -1074 < place q) : (2 : Rat) ^ (52 + place q) ≤ |q| := by
  have : place q = ilog2 q - 52 := by
    unfold place at hp ⊢
    omega
  rw [this, show 52 + (ilog2 q - 52) = ilog2 q by ring]
  exact (ilog2_spec q h).1

theorem roundDouble_zero : roundDouble 0 = 0 := by unfold roundDouble; rw [if_pos rfl]

theorem roundDouble_of {q : Rat} (h : q ≠ 0) : roundDouble q = roundAt (place q) q := by unfold roundDouble; rw [if_neg h]

theorem roundDouble_neg (q : Rat) : roundDouble (-q) = -roundDouble q := by
  by_cases h : q = 0
  · subst h; rw [neg_zero, roundDouble_zero, neg_zero]
  · rw [roundDouble_of h, roundDouble_of (neg_ne_zero.mpr h), place_neg q h, roundAt_neg]

theorem roundDouble_nonneg {q : Rat} (h : 0 ≤ q) : 0 ≤ roundDouble q := by
  by_cases h0 : q = 0
  · subst h0; rw [roundDouble_zero]
  · rw [roundDouble_of h0]
    have := le_roundAt (e := place q) (q := q) (n := 0) (by simpa using h)
    simpa using this

theorem roundAt_upper {q : Rat} (h : 0 < q) : roundAt (place q) q ≤ (2 : Rat) ^ (53 + place q) := by
  have h1 := lt_place h.ne'
  rw [abs_of_pos h] at h1
  have := roundAt_le (e := place q) (q := q) (n := 2 ^ 53) (by
    rw [two_add] at h1
    push_cast
    exact_mod_cast h1.le)
  rw [two_add]
  push_cast at this
  exact_mod_cast this

theorem roundAt_lower {q : Rat} (h : 0 < q) (hp : -1074 < place q) : (2 : Rat) ^ (52 + place q) ≤ roundAt (place q) q := by
  have h1 := place_le h.ne' hp
  rw [abs_of_pos h] at h1
  have := le_roundAt (e := place q) (q := q) (n := 2 ^ 52) (by
    rw [two_add] at h1
    push_cast
    exact_mod_cast h1)
  rw [two_add]
  push_cast at this
  exact_mod_cast this

theorem roundDouble_mono_pos {p q : Rat} (hp : 0 < p) (h : p ≤ q) : roundDouble p ≤ roundDouble q := by
  have hq := hp.trans_le h
  rw [roundDouble_of hp.ne', roundDouble_of hq.ne']
  have he : place p ≤ place q := max_le_max (by have := ilog2_mono hp h; omega) (le_refl _)
  rcases Int.lt_or_eq_of_le he with he | he
  · refine (roundAt_upper hp).trans (le_trans (two_le ?_) (roundAt_lower hq ?_))
    · omega
    · have := place_low p; omega
  · rw [he]; exact roundAt_mono h

/-- Rounding is monotone. -/
theorem roundDouble_mono {p q : Rat} (h : p ≤ q) : roundDouble p ≤ roundDouble q := by
  rcases lt_trichotomy p 0 with hp | hp | hp
  · rcases lt_or_ge q 0 with hq | hq
    · have := roundDouble_mono_pos (p := -q) (q := -p) (by linarith) (by linarith)
      rw [roundDouble_neg, roundDouble_neg] at this
      linarith
    · have h1 := roundDouble_nonneg hq
      have h2 := roundDouble_nonneg (q := -p) (by linarith)
      rw [roundDouble_neg] at h2
      linarith
  · subst hp; rw [roundDouble_zero]; exact roundDouble_nonneg h
  · exact roundDouble_mono_pos hp h

/-- Values with 53 digits are left alone. -/
theorem roundDouble_exact {q : Rat} (h : IsWide q) : roundDouble q = q := by
  obtain ⟨m, k, hm, hk, rfl⟩ := h
  by_cases h0 : (m : Rat) * (2 : Rat) ^ k = 0
  · rw [h0, roundDouble_zero]
  rw [roundDouble_of h0]
  generalize he : place ((m : Rat) * (2 : Rat) ^ k) = e
  have hle : e ≤ k := by
    by_contra hc
    have hp : -1074 < e := by omega
    have h1 := place_le h0 (by rw [he]; exact hp)
    rw [he, abs_mul, abs_of_pos (two_pos k)] at h1
    have h2 : |(m : Rat)| < (2 : Rat) ^ (53 : Int) := by
      rw [← Int.cast_abs]
      exact_mod_cast hm
    have h3 : |(m : Rat)| * (2 : Rat) ^ k < (2 : Rat) ^ (53 + k) := by
      rw [two_add]
      exact mul_lt_mul_of_pos_right h2 (two_pos k)
    have := lt_of_two_lt (lt_of_le_of_lt h1 h3)
    omega
  obtain ⟨d, hd⟩ := Int.eq_ofNat_of_zero_le (show 0 ≤ k - e by omega)
  refine roundAt_exact (n := m * 2 ^ d) ?_
  have : k = (d : Int) + e := by omega
  rw [this, two_add]
  push_cast
  rw [zpow_natCast]
  ring

/-- The result of rounding has 53 digits. -/
theorem roundDouble_wide (q : Rat) : IsWide (roundDouble q) := by
  by_cases h : q = 0
  · subst h
    rw [roundDouble_zero]
    exact ⟨0, 0, by norm_num, by norm_num, by norm_num⟩
  rw [roundDouble_of h]
  have hl := place_low q
  have hb := lt_place h
  generalize hm : rne (q / pow2 (place q)) = m
  have hr : roundAt (place q) q = (m : Rat) * (2 : Rat) ^ (place q) := by
    unfold roundAt
    rw [hm, pow2_eq]
  have hb' : |q / pow2 (place q)| < (2 : Rat) ^ (53 : Int) := by
    rw [pow2_eq, abs_div, abs_of_pos (two_pos (place q)), div_lt_iff₀ (two_pos _), ← two_add]
    exact hb
  have hm' : |m| ≤ 2 ^ 53 := by
    rw [abs_le]
    have := abs_lt.mp hb'
    constructor
    · rw [← hm]
      apply int_le_rne
      push_cast
      have := this.1.le
      exact_mod_cast this
    · rw [← hm]
      apply rne_le_int
      push_cast
      have := this.2.le
      exact_mod_cast this
  rcases lt_or_eq_of_le hm' with h1 | h1
  · exact ⟨m, place q, h1, hl, hr⟩
  · rcases abs_eq (by norm_num : (0 : Int) ≤ 2 ^ 53) |>.mp h1 with h2 | h2
    · refine ⟨2 ^ 52, place q + 1, by norm_num, by omega, ?_⟩
      rw [hr, h2, two_add]
      push_cast
      ring
    · refine ⟨-2 ^ 52, place q + 1, by norm_num, by omega, ?_⟩
      rw [hr, h2, two_add]
      push_cast
      ring

/-- Rounding does not pass a value with 53 digits. -/
theorem roundDouble_le {q d : Rat} (hd : IsWide d) (h : q ≤ d) : roundDouble q ≤ d := by
  rw [← roundDouble_exact hd]; exact roundDouble_mono h

theorem le_roundDouble {q d : Rat} (hd : IsWide d) (h : d ≤ q) : d ≤ roundDouble q := by
  rw [← roundDouble_exact hd]; exact roundDouble_mono h

theorem wide_neg {q : Rat} (h : IsWide q) : IsWide (-q) := by
  obtain ⟨m, e, h1, h2, rfl⟩ := h
  exact ⟨-m, e, by rwa [abs_neg], h2, by push_cast; ring⟩

theorem isDouble_wide {q : Rat} (h : IsDouble q) : IsWide q := by
  obtain ⟨m, e, h1, h2, _, h4⟩ := h
  exact ⟨m, e, h1, h2, h4⟩

theorem max_eq : maxDouble = ((2 ^ 53 - 1 : Int) : Rat) * (2 : Rat) ^ (971 : Int) := by
  unfold maxDouble
  rw [Nat.cast_sub (by exact Nat.pow_le_pow_right (by norm_num) (by norm_num))]
  push_cast
  rw [show (1024 : Nat) = 53 + 971 by norm_num, pow_add, show ((971 : Int)) = ((971 : Nat) : Int) by rfl, zpow_natCast]
  ring

/-- The finite values are those with 53 digits up to the greatest one. -/
theorem isDouble_iff (q : Rat) : IsDouble q ↔ IsWide q ∧ |q| ≤ maxDouble := by
  constructor
  · intro h
    refine ⟨isDouble_wide h, ?_⟩
    obtain ⟨m, e, h1, h2, h3, rfl⟩ := h
    rw [max_eq, abs_mul, abs_of_pos (two_pos e)]
    refine mul_le_mul ?_ (two_le h3) (two_pos e).le (by norm_num)
    rw [← Int.cast_abs]
    exact_mod_cast (by omega : |m| ≤ 2 ^ 53 - 1)
  · rintro ⟨⟨m, e, h1, h2, rfl⟩, h4⟩
    by_cases h3 : e ≤ 971
    · exact ⟨m, e, h1, h2, h3, rfl⟩
    · rw [max_eq, abs_mul, abs_of_pos (two_pos e)] at h4
      obtain ⟨d, hd⟩ := Int.eq_ofNat_of_zero_le (show 0 ≤ e - 971 by omega)
      have he : e = (d : Int) + 971 := by omega
      refine ⟨m * 2 ^ d, 971, ?_, by norm_num, le_refl _, ?_⟩
      · rw [he, two_add, ← mul_assoc] at h4
        have h5 := le_of_mul_le_mul_right h4 (two_pos 971)
        rw [zpow_natCast, ← Int.cast_abs] at h5
        have h6 : |m| * 2 ^ d ≤ 2 ^ 53 - 1 := by exact_mod_cast h5
        rw [abs_mul, abs_of_pos (by positivity : (0 : Int) < 2 ^ d)]
        omega
      · rw [he, two_add, zpow_natCast]
        push_cast
        ring

/-- On the grid of its last place, a rational is rounded to a nearest point; to an even one in case of a tie. -/
theorem grid_nearest (e : Int) (q : Rat) (n : Int) :
    |roundAt e q - q| ≤ |n * (2 : Rat) ^ e - q| ∧
    (|roundAt e q - q| = |n * (2 : Rat) ^ e - q| → roundAt e q ≠ n * (2 : Rat) ^ e → ∃ k : Int, roundAt e q = (2 * k : Int) * (2 : Rat) ^ e) := by
  have hs := two_pos e
  have key : ∀ a : Int, |a * (2 : Rat) ^ e - q| = |(a : Rat) - q / (2 : Rat) ^ e| * (2 : Rat) ^ e := by
    intro a
    rw [← abs_of_pos hs, ← abs_mul, abs_of_pos hs, sub_mul, div_mul_cancel₀ _ hs.ne']
  have hr : roundAt e q = (rne (q / (2 : Rat) ^ e) : Rat) * (2 : Rat) ^ e := by unfold roundAt; rw [pow2_eq]
  generalize q / (2 : Rat) ^ e = x at key hr
  have h1 := rne_spec x
  rw [hr, key, key]
  have far : n ≠ rne x → 1 / 2 ≤ |(n : Rat) - x| := by
    intro hne
    by_contra hc
    have a := abs_lt.mp (not_le.mp hc)
    have b := abs_le.mp h1
    have c1 : ((n : Int) : Rat) < ((rne x + 1 : Int) : Rat) := by push_cast; linarith
    have c2 : ((rne x : Int) : Rat) < ((n + 1 : Int) : Rat) := by push_cast; linarith
    have c1 := Rat.intCast_lt_intCast.mp c1
    have c2 := Rat.intCast_lt_intCast.mp c2
    omega
  refine ⟨?_, fun h2 h3 => ?_⟩
  · by_cases hn : n = rne x
    · rw [hn]
    · exact mul_le_mul_of_nonneg_right (h1.trans (far hn)) hs.le
  · have hn : n ≠ rne x := by rintro rfl; exact h3 rfl
    have h4 : |(rne x : Rat) - x| = |(n : Rat) - x| := mul_right_cancel₀ hs.ne' h2
    obtain ⟨k, hk⟩ := rne_even x (le_antisymm h1 (by rw [h4]; exact far hn))
    exact ⟨k, by rw [hk]⟩

/-- A value with 53 digits is on the grid of a positive rational, or less than one that is, below the rational. -/
theorem grid_or_below {q d : Rat} (hq : 0 < q) (hd : IsWide d) :
    (∃ n : Int, d = n * (2 : Rat) ^ place q) ∨ ∃ n : Int, d < n * (2 : Rat) ^ place q ∧ n * (2 : Rat) ^ place q ≤ q := by
  obtain ⟨m, k, hm, hk, rfl⟩ := hd
  by_cases hle : place q ≤ k
  · left
    obtain ⟨j, hj⟩ := Int.eq_ofNat_of_zero_le (show 0 ≤ k - place q by omega)
    refine ⟨m * 2 ^ j, ?_⟩
    have : k = (j : Int) + place q := by omega
    conv_lhs => rw [this, two_add, zpow_natCast]
    push_cast
    ring
  · right
    refine ⟨2 ^ 52, ?_, ?_⟩
    · have h2 : (m : Rat) < (2 : Rat) ^ (53 : Int) := by
        have := (abs_lt.mp hm).2
        exact_mod_cast this
      calc (m : Rat) * (2 : Rat) ^ k < (2 : Rat) ^ (53 : Int) * (2 : Rat) ^ k := mul_lt_mul_of_pos_right h2 (two_pos k)
        _ = (2 : Rat) ^ (53 + k) := by rw [two_add]
        _ ≤ (2 : Rat) ^ (52 + place q) := two_le (by omega)
        _ = _ := by rw [two_add]; push_cast; rfl
    · have := place_le hq.ne' (by omega)
      rw [abs_of_pos hq, two_add] at this
      push_cast
      exact_mod_cast this

theorem nearest_pos {q : Rat} (hq : 0 < q) (d : Rat) (hd : IsWide d) :
    |roundDouble q - q| ≤ |d - q| ∧ (|roundDouble q - q| = |d - q| → roundDouble q ≠ d →
      ∃ k : Int, roundDouble q = (2 * k : Int) * (2 : Rat) ^ place q) := by
  rw [roundDouble_of hq.ne']
  rcases grid_or_below hq hd with ⟨n, rfl⟩ | ⟨n, h1, h2⟩
  · exact grid_nearest _ _ _
  · obtain ⟨h3, _⟩ := grid_nearest (place q) q n
    have h4 : |n * (2 : Rat) ^ place q - q| < |d - q| := by
      rw [abs_sub_comm, abs_of_nonneg (by linarith), abs_sub_comm d, abs_of_nonneg (by linarith)]
      linarith
    exact ⟨h3.trans h4.le, fun h5 => absurd (h5 ▸ h3) (not_le.mpr h4)⟩

/-- `roundDouble` gives a nearest value with 53 digits. -/
theorem nearest (q d : Rat) (hd : IsWide d) : |roundDouble q - q| ≤ |d - q| := by
  rcases lt_trichotomy q 0 with h | h | h
  · have := (nearest_pos (q := -q) (by linarith) (-d) (wide_neg hd)).1
    rw [roundDouble_neg, ← abs_neg, ← abs_neg (-d - -q)] at this
    rwa [show -(-roundDouble q - -q) = roundDouble q - q by ring, show -(-d - -q) = d - q by ring] at this
  · subst h; rw [roundDouble_zero]; simp
  · exact (nearest_pos h d hd).1

/-- When there are two of them, the last digit of the result is even. -/
theorem tie_even (q d : Rat) (hd : IsWide d) (h : |roundDouble q - q| = |d - q|) (hne : roundDouble q ≠ d) :
    ∃ k : Int, roundDouble q = (2 * k : Int) * (2 : Rat) ^ place q := by
  rcases lt_trichotomy q 0 with hq | hq | hq
  · have := (nearest_pos (q := -q) (by linarith) (-d) (wide_neg hd)).2
    rw [roundDouble_neg, ← abs_neg, ← abs_neg (-d - -q), place_neg q hq.ne] at this
    rw [show -(-roundDouble q - -q) = roundDouble q - q by ring, show -(-d - -q) = d - q by ring] at this
    obtain ⟨k, hk⟩ := this h (fun e => hne (neg_injective e))
    refine ⟨-k, ?_⟩
    have : roundDouble q = -((2 * k : Int) * (2 : Rat) ^ place q) := by rw [← hk, neg_neg]
    rw [this]
    push_cast
    ring
  · subst hq
    rw [roundDouble_zero] at h hne
    rw [sub_zero, sub_zero, abs_zero] at h
    exact absurd (abs_eq_zero.mp h.symm).symm hne
  · exact (nearest_pos hq d hd).2 h hne

end Verif.Go.F64
