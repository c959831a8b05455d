import Verif.Go.Basic
import Mathlib.Algebra.Order.Floor.Ring
import Mathlib.Data.Rat.Floor
import Mathlib.Tactic.Linarith
import Mathlib.Tactic.Ring

/-! # Floating-point numbers

Package `linebreak` computes with `float64`. The model is written for any type with the operations
below. `Laws` collects the few facts the proofs use: they hold for `float64` (IEEE 754 arithmetic is
exact on integers up to 2^53, and comparisons of numbers that are not NaN are those of a total order)
and, as proved here, for the rationals. -/

namespace Verif.Go

/-- The operations of `float64` used by the code. -/
class Arith (F : Type) where
  add : F → F → F
  sub : F → F → F
  mul : F → F → F
  div : F → F → F
  neg : F → F
  abs : F → F          -- math.Abs
  round : F → F        -- math.Round
  pow : F → Nat → F    -- math.Pow(x, n) for a literal n
  lt : F → F → Bool    -- a < b, also b > a
  le : F → F → Bool    -- a <= b, also b >= a
  eq : F → F → Bool    -- a == b
  ofInt : Int → F      -- integral literals, and the conversion float64(n)
  tenths : Int → F     -- literals with one decimal: `tenths 86` is 8.6
  maxFloat : F         -- math.MaxFloat64
  toInt : F → Int      -- the conversion int(x)

/-- A number between 0 and an integer. -/
def Within {F : Type} [Arith F] (x : F) (a : Int) : Prop :=
  Arith.le (Arith.ofInt 0) x = true ∧ Arith.le x (Arith.ofInt a) = true

/-- Facts on integral values up to a bound, and on comparisons. For `float64` the bound is 2^53. -/
class Laws (F : Type) [Arith F] where
  /-- Integers up to this bound are represented exactly. -/
  bound : Int
  bound_large : 2 ^ 53 ≤ bound
  add_int : ∀ a b : Int, |a| ≤ bound → |b| ≤ bound → |a + b| ≤ bound →
    Arith.add (Arith.ofInt a : F) (Arith.ofInt b) = Arith.ofInt (a + b)
  sub_int : ∀ a b : Int, |a| ≤ bound → |b| ≤ bound → |a - b| ≤ bound →
    Arith.sub (Arith.ofInt a : F) (Arith.ofInt b) = Arith.ofInt (a - b)
  /-- For `float64` the opposite of 0 is another representation of 0. -/
  neg_int : ∀ a : Int, |a| ≤ bound → a ≠ 0 → Arith.neg (Arith.ofInt a : F) = Arith.ofInt (-a)
  lt_int : ∀ a b : Int, |a| ≤ bound → |b| ≤ bound →
    Arith.lt (Arith.ofInt a : F) (Arith.ofInt b) = decide (a < b)
  le_int : ∀ a b : Int, |a| ≤ bound → |b| ≤ bound →
    Arith.le (Arith.ofInt a : F) (Arith.ofInt b) = decide (a ≤ b)
  eq_int : ∀ a b : Int, |a| ≤ bound → |b| ≤ bound →
    Arith.eq (Arith.ofInt a : F) (Arith.ofInt b) = decide (a = b)
  /-- A strict inequality excludes the opposite one (also when a NaN is involved). -/
  le_of_lt : ∀ x y : F, Arith.lt x y = true → Arith.le y x = false
  eq_comm : ∀ x y : F, Arith.eq x y = Arith.eq y x
  /-- Adding a multiple by zero (of either sign) changes nothing. -/
  add_zero_mul : ∀ a b : Int, |a| ≤ bound → |b| ≤ bound →
    Arith.add (Arith.ofInt a : F) (Arith.mul (Arith.ofInt 0) (Arith.ofInt b)) = Arith.ofInt a
  lt_asymm : ∀ x y : F, Arith.lt x y = true → Arith.lt y x = false
  /-- A quotient of positive integers is not negative. -/
  div_pos : ∀ a b : Int, 0 < a → a ≤ bound → 0 < b → b ≤ bound →
    Arith.le (Arith.ofInt 0 : F) (Arith.div (Arith.ofInt a) (Arith.ofInt b)) = true
  /-- The order is transitive. -/
  le_trans : ∀ x y z : F, Arith.le x y = true → Arith.le y z = true → Arith.le x z = true
  lt_of_le : ∀ x y z : F, Arith.le x y = true → Arith.lt y z = true → Arith.lt x z = true
  le_max : Arith.le (Arith.maxFloat : F) Arith.maxFloat = true
  zero_lt_max : Arith.lt (Arith.ofInt 0 : F) Arith.maxFloat = true
  mul_one : ∀ a : Int, Arith.mul (Arith.ofInt a : F) (Arith.ofInt 1) = Arith.ofInt a
  div_one : ∀ a : Int, Arith.div (Arith.ofInt a : F) (Arith.ofInt 1) = Arith.ofInt a
  round_int : ∀ a : Int, Arith.round (Arith.ofInt a : F) = Arith.ofInt a
  toInt_int : ∀ a : Int, |a| ≤ bound → Arith.toInt (Arith.ofInt a : F) = a
  /-- A quotient of at most one half, and 0, compared with the literals 0.5 and -0.5. -/
  div_half : ∀ a b : Int, 0 ≤ a → 0 < b → b ≤ bound → 2 * a ≤ b →
    Arith.le (Arith.div (Arith.ofInt a : F) (Arith.ofInt b)) (Arith.tenths 5) = true
  zero_half : Arith.le (Arith.ofInt 0 : F) (Arith.tenths 5) = true
  minus_half : ∀ x : F, Arith.le (Arith.ofInt 0) x = true → Arith.lt x (Arith.tenths (-5)) = false
  /-- Literals with one decimal are in order, and those with decimal 0 are integers. -/
  tenths_le : ∀ a b : Int, a ≤ b → Arith.le (Arith.tenths a : F) (Arith.tenths b) = true
  tenths_int : ∀ a : Int, (Arith.tenths (10 * a) : F) = Arith.ofInt a
  /-- A quotient of integers compared with a literal with one decimal. -/
  div_tenths : ∀ a b t : Int, 0 ≤ a → a ≤ bound → 0 < b → b ≤ bound → 10 * a ≤ t * b →
    Arith.le (Arith.div (Arith.ofInt a : F) (Arith.ofInt b)) (Arith.tenths t) = true
  tenths_div : ∀ a b t : Int, 0 ≤ a → a ≤ bound → 0 < b → b ≤ bound → t * b ≤ 10 * a →
    Arith.le (Arith.tenths t) (Arith.div (Arith.ofInt a : F) (Arith.ofInt b)) = true
  /-- Quotients of integers are in order. -/
  div_mono : ∀ a a' b b' : Int, 0 ≤ a → a ≤ a' → a' ≤ bound → 0 < b' → b' ≤ b → b ≤ bound →
    Arith.le (Arith.div (Arith.ofInt a : F) (Arith.ofInt b)) (Arith.div (Arith.ofInt a') (Arith.ofInt b')) = true
  /-- Operations are monotone on positive numbers, and exact on integers. -/
  add_within : ∀ (x y : F) (a b : Int), Within x a → Within y b → a + b ≤ 2 ^ 53 →
    Within (Arith.add x y) (a + b)
  mul_within : ∀ (x y : F) (a b : Int), Within x a → Within y b → a ≤ 2 ^ 53 → b ≤ 2 ^ 53 → a * b ≤ 2 ^ 53 →
    Within (Arith.mul x y) (a * b)
  square_within : ∀ (x : F) (a : Int), Within x a → a ^ 2 ≤ 2 ^ 53 → Within (Arith.pow x 2) (a ^ 2)
  cube_within : ∀ (x : F) (a : Int), Within x a → a ^ 3 ≤ 2 ^ 53 → Within (Arith.pow x 3) (a ^ 3)
  abs_within : ∀ (x : F) (a : Int), Arith.le (Arith.ofInt (-a)) x = true →
    Arith.le x (Arith.ofInt a) = true → a ≤ 2 ^ 53 → Within (Arith.abs x) a
  /-- Subtracting the square of a zero (of either sign) changes nothing. -/
  sub_zero_square : ∀ (x p : F) (a b : Int), Within x a → Within p b → Arith.lt (Arith.ofInt 0) p = false →
    Within (Arith.sub x (Arith.pow p 2)) a
  within_lt_max : ∀ (x : F) (a : Int), Within x a → a ≤ 2 ^ 53 → Arith.lt x Arith.maxFloat = true

/-! ## The rationals -/

/-- math.Round on rationals: half away from zero. -/
def ratRound (x : Rat) : Rat := if 0 ≤ x then ((x + 1/2).floor : Rat) else ((x - 1/2).ceil : Rat)

/-- The conversion int(x) on rationals: truncation. -/
def ratTrunc (x : Rat) : Int := if 0 ≤ x then x.floor else x.ceil

instance : Arith Rat where
  add x y := x + y
  sub x y := x - y
  mul x y := x * y
  div x y := x / y
  neg x := -x
  abs x := if 0 ≤ x then x else -x
  round := ratRound
  pow x n := x ^ n
  lt x y := decide (x < y)
  le x y := decide (x ≤ y)
  eq x y := decide (x = y)
  ofInt n := (n : Rat)
  tenths n := (n : Rat) / 10
  maxFloat := 2 ^ 1024 - 2 ^ 971
  toInt := ratTrunc

theorem ratRound_int (a : Int) : ratRound (a : Rat) = (a : Rat) := by
  have h1 : ((a : Rat) + 1 / 2).floor = a := by
    rw [show ((a : Rat) + 1 / 2).floor = ⌊(a : Rat) + 1 / 2⌋ from rfl, Int.floor_eq_iff]
    constructor <;> linarith
  have h2 : ((a : Rat) - 1 / 2).ceil = a := by
    rw [Rat.ceil_eq_neg_floor_neg,
      show (-((a : Rat) - 1 / 2)).floor = ⌊-((a : Rat) - 1 / 2)⌋ from rfl]
    have : ⌊-((a : Rat) - 1 / 2)⌋ = -a := by
      rw [Int.floor_eq_iff]
      push_cast
      constructor <;> linarith
    rw [this, neg_neg]
  unfold ratRound
  split
  · rw [h1]
  · rw [h2]

theorem ratTrunc_int (a : Int) : ratTrunc (a : Rat) = a := by
  unfold ratTrunc
  split <;> simp

theorem within_rat {x : Rat} {a : Int} (h : Within x a) : 0 ≤ x ∧ x ≤ (a : Rat) := by
  obtain ⟨h1, h2⟩ := h
  simp only [Arith.le, Arith.ofInt, decide_eq_true_eq] at h1 h2
  exact ⟨by exact_mod_cast h1, h2⟩

theorem rat_within {x : Rat} {a : Int} (h1 : 0 ≤ x) (h2 : x ≤ (a : Rat)) : Within x a := by
  unfold Within
  simp only [Arith.le, Arith.ofInt, decide_eq_true_eq]
  exact ⟨by exact_mod_cast h1, h2⟩

/-- The laws hold for the rationals, with any bound. -/
@[reducible] def ratLaws (B : Int) (hB : 2 ^ 53 ≤ B) : Laws Rat where
  bound := B
  bound_large := hB
  add_int := by intro a b _ _ _; simp [Arith.add, Arith.ofInt]
  sub_int := by intro a b _ _ _; simp [Arith.sub, Arith.ofInt]
  neg_int := by intro a _ _; simp [Arith.neg, Arith.ofInt]
  lt_int := by intro a b _ _; simp [Arith.lt, Arith.ofInt]
  le_int := by intro a b _ _; simp [Arith.le, Arith.ofInt]
  eq_int := by intro a b _ _; simp [Arith.eq, Arith.ofInt]
  le_of_lt := by intro x y; simp [Arith.lt, Arith.le]
  eq_comm := by intro x y; simp [Arith.eq, _root_.eq_comm]
  add_zero_mul := by intro a b _ _; simp [Arith.add, Arith.mul, Arith.ofInt]
  lt_asymm := by
    intro x y
    simp only [Arith.lt, decide_eq_true_eq, decide_eq_false_iff_not]
    exact fun h => (h.le).not_gt
  div_pos := by
    intro a b ha _ hb _
    simp only [Arith.le, Arith.div, Arith.ofInt, decide_eq_true_eq]
    exact div_nonneg (by exact_mod_cast ha.le) (by exact_mod_cast hb.le)
  le_trans := by
    intro x y z
    simp only [Arith.le, decide_eq_true_eq]
    exact fun h1 h2 => h1.trans h2
  lt_of_le := by
    intro x y z
    simp only [Arith.le, Arith.lt, decide_eq_true_eq]
    exact fun h1 h2 => h1.trans_lt h2
  le_max := by simp [Arith.le]
  zero_lt_max := by
    simp only [Arith.lt, Arith.ofInt, Arith.maxFloat, decide_eq_true_eq]
    have h : (2 : Rat) ^ 971 < 2 ^ 1024 := pow_lt_pow_right₀ (by norm_num) (by norm_num)
    have e : ((0 : Int) : Rat) = 0 := rfl
    rw [e]
    exact sub_pos.mpr h
  mul_one := by intro a; simp [Arith.mul, Arith.ofInt]
  div_one := by intro a; simp [Arith.div, Arith.ofInt]
  round_int := by
    intro a
    simp only [Arith.round, Arith.ofInt]
    exact ratRound_int a
  toInt_int := by
    intro a _
    simp only [Arith.toInt, Arith.ofInt]
    exact ratTrunc_int a
  div_half := by
    intro a b ha hb _ h
    simp only [Arith.le, Arith.div, Arith.ofInt, Arith.tenths, decide_eq_true_eq]
    have hb' : (0 : Rat) < (b : Rat) := by exact_mod_cast hb
    have h' : 2 * (a : Rat) ≤ (b : Rat) := by exact_mod_cast h
    rw [div_le_iff₀ hb']
    push_cast
    linarith
  zero_half := by
    simp only [Arith.le, Arith.ofInt, Arith.tenths, decide_eq_true_eq]
    norm_num
  minus_half := by
    intro x h
    simp only [Arith.le, Arith.lt, Arith.ofInt, Arith.tenths, decide_eq_true_eq, decide_eq_false_iff_not, not_lt] at *
    push_cast at *
    linarith
  tenths_le := by
    intro a b h
    simp only [Arith.le, Arith.tenths, decide_eq_true_eq]
    have : (a : Rat) ≤ (b : Rat) := by exact_mod_cast h
    linarith
  tenths_int := by
    intro a
    simp only [Arith.tenths, Arith.ofInt]
    push_cast
    linarith
  div_tenths := by
    intro a b t _ _ hb _ h
    simp only [Arith.le, Arith.div, Arith.ofInt, Arith.tenths, decide_eq_true_eq]
    have hb' : (0 : Rat) < (b : Rat) := by exact_mod_cast hb
    have h' : 10 * (a : Rat) ≤ (t : Rat) * (b : Rat) := by exact_mod_cast h
    rw [div_le_iff₀ hb']
    linarith
  tenths_div := by
    intro a b t _ _ hb _ h
    simp only [Arith.le, Arith.div, Arith.ofInt, Arith.tenths, decide_eq_true_eq]
    have hb' : (0 : Rat) < (b : Rat) := by exact_mod_cast hb
    have h' : (t : Rat) * (b : Rat) ≤ 10 * (a : Rat) := by exact_mod_cast h
    rw [le_div_iff₀ hb']
    linarith
  div_mono := by
    intro a a' b b' ha haa _ hb hbb _
    simp only [Arith.le, Arith.div, Arith.ofInt, decide_eq_true_eq]
    exact div_le_div₀ (by exact_mod_cast le_trans ha haa) (by exact_mod_cast haa) (by exact_mod_cast hb) (by exact_mod_cast hbb)
  add_within := by
    intro x y a b h1 h2 _
    obtain ⟨h1, h1'⟩ := within_rat h1
    obtain ⟨h2, h2'⟩ := within_rat h2
    exact rat_within (add_nonneg h1 h2) (by push_cast; exact add_le_add h1' h2')
  mul_within := by
    intro x y a b h1 h2 _ _ _
    obtain ⟨h1, h1'⟩ := within_rat h1
    obtain ⟨h2, h2'⟩ := within_rat h2
    exact rat_within (mul_nonneg h1 h2) (by push_cast; exact mul_le_mul h1' h2' h2 (h1.trans h1'))
  square_within := by
    intro x a h1 _
    obtain ⟨h1, h1'⟩ := within_rat h1
    exact rat_within (pow_nonneg h1 2) (by push_cast; exact pow_le_pow_left₀ h1 h1' 2)
  cube_within := by
    intro x a h1 _
    obtain ⟨h1, h1'⟩ := within_rat h1
    exact rat_within (pow_nonneg h1 3) (by push_cast; exact pow_le_pow_left₀ h1 h1' 3)
  abs_within := by
    intro x a h1 h2 _
    simp only [Arith.le, Arith.ofInt, decide_eq_true_eq] at h1 h2
    push_cast at h1
    simp only [Arith.abs]
    split
    · exact rat_within (by assumption) h2
    · exact rat_within (by linarith) (by linarith)
  sub_zero_square := by
    intro x p a b h1 h2 h3
    obtain ⟨h1, h1'⟩ := within_rat h1
    obtain ⟨h2, _⟩ := within_rat h2
    simp only [Arith.lt, Arith.ofInt, decide_eq_false_iff_not, not_lt] at h3
    have hp : p = 0 := le_antisymm (by exact_mod_cast h3) h2
    have e : Arith.sub x (Arith.pow p 2) = x := by
      subst hp
      simp [Arith.sub, Arith.pow]
    rw [e]
    exact rat_within h1 h1'
  within_lt_max := by
    intro x a h1 h2
    obtain ⟨h1, h1'⟩ := within_rat h1
    simp only [Arith.lt, Arith.maxFloat, decide_eq_true_eq]
    have h3 : (a : Rat) ≤ 2 ^ 53 := by exact_mod_cast h2
    have e2 : (2 : Rat) ^ 971 < 2 ^ 1023 := pow_lt_pow_right₀ (by norm_num) (by norm_num)
    have e3 : (2 : Rat) ^ 53 < 2 ^ 1023 := pow_lt_pow_right₀ (by norm_num) (by norm_num)
    have e1 : (2 : Rat) ^ 1024 = 2 ^ 1023 * 2 := pow_succ 2 1023
    refine lt_of_le_of_lt (h1'.trans h3) ?_
    generalize (2 : Rat) ^ 1024 = u at *
    generalize (2 : Rat) ^ 1023 = v at *
    generalize (2 : Rat) ^ 971 = w at *
    generalize (2 : Rat) ^ 53 = z at *
    linarith

end Verif.Go
