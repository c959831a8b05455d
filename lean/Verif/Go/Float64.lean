import Verif.Go.Float
import Verif.Go.Round64

/-! # `float64`

The values and the operations of IEEE 754 binary64 numbers, as Go has them on amd64: every operation gives the exact
result, rounded to the nearest value (`roundDouble`). NaNs are not told apart, because Go code cannot.

The laws that the theorems on package `linebreak` rely on (`Laws`) are proved for them. -/

namespace Verif.Go
open F64

/-- The values of type `float64`: a finite one has a sign bit and a value; zeros may have any sign. -/
inductive F64 where
  | nan
  | inf (neg : Bool)
  | fin (neg : Bool) (q : Rat) (double : IsDouble q) (signed : q ≠ 0 → neg = decide (q < 0))

namespace F64

theorem isDouble_zero : IsDouble 0 := ⟨0, 0, by norm_num, by norm_num, by norm_num, by norm_num⟩

theorem maxDouble_pos : 0 < maxDouble := by
  rw [max_eq]
  exact mul_pos (by norm_num) (two_pos _)

theorem isDouble_max : IsDouble maxDouble := ⟨2 ^ 53 - 1, 971, by norm_num, by norm_num, by norm_num, max_eq⟩

theorem isDouble_neg {q : Rat} (h : IsDouble q) : IsDouble (-q) :=
  (isDouble_iff _).mpr ⟨wide_neg (isDouble_wide h), by rw [abs_neg]; exact ((isDouble_iff _).mp h).2⟩

theorem isDouble_abs {q : Rat} (h : IsDouble q) : IsDouble |q| := by
  rcases abs_choice q with e | e <;> rw [e]
  · exact h
  · exact isDouble_neg h

theorem sign_neg {q : Rat} {s : Bool} (h : q ≠ 0 → s = decide (q < 0)) : -q ≠ 0 → (!s) = decide (-q < 0) := by
  intro h0
  have h1 : q ≠ 0 := fun e => h0 (by rw [e, neg_zero])
  rw [h h1, ← decide_not]
  congr 1
  rw [eq_iff_iff, not_lt, neg_lt_zero]
  exact ⟨fun h => lt_of_le_of_ne h (Ne.symm h1), le_of_lt⟩

/-- A zero. -/
def zero (neg : Bool) : F64 := fin neg 0 isDouble_zero (fun h => absurd rfl h)

/-- The result of an operation whose exact result is `q`; `neg` is the sign if it becomes 0. -/
def pack (neg : Bool) (q : Rat) : F64 :=
  if h : |roundDouble q| ≤ maxDouble then
    fin (if roundDouble q = 0 then neg else decide (roundDouble q < 0)) (roundDouble q)
      ((isDouble_iff _).mpr ⟨roundDouble_wide q, h⟩) (fun h0 => by rw [if_neg h0])
  else inf (decide (q < 0))

/-- `-x` -/
def neg : F64 → F64
  | nan => nan
  | inf s => inf (!s)
  | fin s q h hs => fin (!s) (-q) (isDouble_neg h) (sign_neg hs)

/-- `x + y`: a sum that is exactly 0 is positive, unless both are negative zeros. -/
def add : F64 → F64 → F64
  | nan, _ => nan
  | inf _, nan => nan
  | inf s, inf t => if s = t then inf s else nan
  | inf s, fin _ _ _ _ => inf s
  | fin _ _ _ _, nan => nan
  | fin _ _ _ _, inf t => inf t
  | fin s p _ _, fin t q _ _ => pack (s && t) (p + q)

/-- `x - y` -/
def sub (x y : F64) : F64 := add x (neg y)

/-- `x * y` -/
def mul : F64 → F64 → F64
  | nan, _ => nan
  | inf _, nan => nan
  | inf s, inf t => inf (s != t)
  | inf s, fin t q _ _ => if q = 0 then nan else inf (s != t)
  | fin _ _ _ _, nan => nan
  | fin s p _ _, inf t => if p = 0 then nan else inf (s != t)
  | fin s p _ _, fin t q _ _ => pack (s != t) (p * q)

/-- `x / y` -/
def div : F64 → F64 → F64
  | nan, _ => nan
  | inf _, nan => nan
  | inf _, inf _ => nan
  | inf s, fin t _ _ _ => inf (s != t)
  | fin _ _ _ _, nan => nan
  | fin s _ _ _, inf t => zero (s != t)
  | fin s p _ _, fin t q _ _ =>
    if q = 0 then (if p = 0 then nan else inf (s != t)) else pack (s != t) (p / q)

/-- `math.Abs` -/
def abs : F64 → F64
  | nan => nan
  | inf _ => inf false
  | fin _ q h _ => fin false |q| (isDouble_abs h) (fun _ => by simp [not_lt.mpr (abs_nonneg q)])

/-- `math.Round`: half away from zero; the sign of zeros is kept. -/
def round : F64 → F64
  | nan => nan
  | inf s => inf s
  | fin s q _ _ => pack s (ratRound q)

/-- The loop of `math.Pow(x, n)` for an integer n > 0 (math/pow.go: the bits of n, lowest first), with values in place
of pairs (mantissa, exponent): products are rounded to 53 digits, whatever the exponent. -/
def powLoop : Nat → Nat → Rat → Rat → Rat
  | 0, _, a, _ => a
  | fuel + 1, n, a, x =>
    if n = 0 then a
    else powLoop fuel (n / 2) (if n % 2 = 1 then round53 (a * x) else a) (round53 (x * x))

/-- `math.Pow(x, n)` for a small integer `n` (up to 3: the exponents of intermediate results stay in the range where
math.Pow does not stop early). -/
def pow (x : F64) (n : Nat) : F64 :=
  if n = 0 then fin false 1 ⟨1, 0, by norm_num, by norm_num, by norm_num, by norm_num⟩ (fun _ => by norm_num)
  else if n = 1 then x
  else match x with
  | nan => nan
  | inf s => inf (s && n % 2 == 1)
  | fin s q _ _ => pack (s && n % 2 == 1) (powLoop n n 1 q)

/-- `x < y` -/
def lt : F64 → F64 → Bool
  | nan, _ => false
  | inf _, nan => false
  | inf s, inf t => s && !t
  | inf s, fin _ _ _ _ => s
  | fin _ _ _ _, nan => false
  | fin _ _ _ _, inf t => !t
  | fin _ p _ _, fin _ q _ _ => decide (p < q)

/-- `x <= y` -/
def le : F64 → F64 → Bool
  | nan, _ => false
  | inf _, nan => false
  | inf s, inf t => s || !t
  | inf s, fin _ _ _ _ => s
  | fin _ _ _ _, nan => false
  | fin _ _ _ _, inf t => !t
  | fin _ p _ _, fin _ q _ _ => decide (p ≤ q)

/-- `x == y` -/
def eq : F64 → F64 → Bool
  | nan, _ => false
  | inf _, nan => false
  | inf s, inf t => s == t
  | inf _, fin _ _ _ _ => false
  | fin _ _ _ _, nan => false
  | fin _ _ _ _, inf _ => false
  | fin _ p _ _, fin _ q _ _ => decide (p = q)

/-- The conversion `int(x)`: what does not fit in 64 bits, infinities and NaN give the least integer (on amd64). -/
def toInt : F64 → Int
  | nan => -2 ^ 63
  | inf _ => -2 ^ 63
  | fin _ q _ _ => if -2 ^ 63 ≤ ratTrunc q ∧ ratTrunc q < 2 ^ 63 then ratTrunc q else -2 ^ 63

end F64

instance : Arith F64 where
  add := F64.add
  sub := F64.sub
  mul := F64.mul
  div := F64.div
  neg := F64.neg
  abs := F64.abs
  round := F64.round
  pow := F64.pow
  lt := F64.lt
  le := F64.le
  eq := F64.eq
  ofInt n := F64.pack false n
  tenths n := F64.pack false (mkRat n 10)
  maxFloat := .fin false F64.maxDouble F64.isDouble_max
    (fun _ => (decide_eq_false (not_lt.mpr F64.maxDouble_pos.le)).symm)
  toInt := F64.toInt

namespace F64

/-! ## Facts -/

attribute [local irreducible] maxDouble pack roundDouble round53

theorem wide_int {n : Int} (h : |n| ≤ 2 ^ 53) : IsWide (n : Rat) := by
  rcases lt_or_eq_of_le h with h | h
  · exact ⟨n, 0, h, by norm_num, by norm_num⟩
  · rcases abs_eq (by norm_num : (0 : Int) ≤ 2 ^ 53) |>.mp h with h | h
    · exact ⟨2 ^ 52, 1, by norm_num, by norm_num, by rw [h]; norm_num⟩
    · exact ⟨-2 ^ 52, 1, by norm_num, by norm_num, by rw [h]; norm_num⟩

theorem small_max {q : Rat} (h : |q| ≤ 2 ^ 53) : |q| ≤ maxDouble := by
  refine h.trans ?_
  rw [max_eq]
  have h1 : (1 : Rat) ≤ ((2 ^ 53 - 1 : Int) : Rat) := by norm_num
  have h2 : (2 : Rat) ^ (53 : Int) ≤ (2 : Rat) ^ (971 : Int) := two_le (by norm_num)
  calc (2 : Rat) ^ 53 = (2 : Rat) ^ (53 : Int) := by norm_num
    _ ≤ (2 : Rat) ^ (971 : Int) := h2
    _ ≤ _ := le_mul_of_one_le_left (two_pos _).le h1

theorem isDouble_int {n : Int} (h : |n| ≤ 2 ^ 53) : IsDouble (n : Rat) := by
  refine (isDouble_iff _).mpr ⟨wide_int h, small_max ?_⟩
  rw [← Int.cast_abs]
  exact_mod_cast h

theorem fin_congr {s t : Bool} {p q : Rat} {h1 h2 h3 h4} (hs : s = t) (hq : p = q) : fin s p h1 h2 = fin t q h3 h4 := by
  subst hs hq; rfl

/-- What packing gives. -/
theorem pack_cases (s : Bool) (q : Rat) :
    (|roundDouble q| ≤ maxDouble ∧
      ∃ h1 h2, pack s q = fin (if roundDouble q = 0 then s else decide (roundDouble q < 0)) (roundDouble q) h1 h2) ∨
    (maxDouble < roundDouble q ∧ pack s q = inf false) ∨ (roundDouble q < -maxDouble ∧ pack s q = inf true) := by
  by_cases h : |roundDouble q| ≤ maxDouble
  · refine Or.inl ⟨h, (isDouble_iff _).mpr ⟨roundDouble_wide q, h⟩, (fun h0 => by rw [if_neg h0]), ?_⟩
    unfold pack
    rw [dif_pos h]
  · right
    have h' : pack s q = inf (decide (q < 0)) := by unfold pack; rw [dif_neg h]
    rcases lt_or_ge q 0 with hq | hq
    · right
      refine ⟨?_, by rw [h', decide_eq_true hq]⟩
      have h1 := roundDouble_mono hq.le
      rw [roundDouble_zero] at h1
      rw [not_le, abs_of_nonpos h1] at h
      linarith
    · left
      refine ⟨?_, by rw [h', decide_eq_false (not_lt.mpr hq)]⟩
      rwa [not_le, abs_of_nonneg (roundDouble_nonneg hq)] at h

/-- A double packs to itself. -/
theorem pack_exact {q : Rat} (h : IsDouble q) (s : Bool) (hs : q ≠ 0 → s = decide (q < 0)) : pack s q = fin s q h hs := by
  have hr := roundDouble_exact (isDouble_wide h)
  rcases pack_cases s q with ⟨_, h1, h2, h3⟩ | ⟨h1, _⟩ | ⟨h1, _⟩
  · rw [h3]
    refine fin_congr ?_ hr
    rw [hr]
    split
    · rfl
    · rename_i h0; exact (hs h0).symm
  · rw [hr] at h1; have := (abs_le.mp ((isDouble_iff _).mp h).2).2; linarith
  · rw [hr] at h1; have := (abs_le.mp ((isDouble_iff _).mp h).2).1; linarith

theorem pack_double {q : Rat} (h : IsDouble q) (s : Bool) : ∃ t hs, pack s q = fin t q h hs ∧ (q = 0 → t = s) ∧ (q ≠ 0 → t = decide (q < 0)) := by
  by_cases h0 : q = 0
  · exact ⟨s, fun h => absurd h0 h, pack_exact h s _, fun _ => rfl, fun h => absurd h0 h⟩
  · refine ⟨decide (q < 0), fun _ => rfl, ?_, fun h => absurd h h0, fun _ => rfl⟩
    have hr := roundDouble_exact (isDouble_wide h)
    rcases pack_cases s q with ⟨_, h1, h2, h3⟩ | ⟨h1, _⟩ | ⟨h1, _⟩
    · rw [h3]
      refine fin_congr ?_ hr
      rw [hr, if_neg h0]
    · rw [hr] at h1; have := (abs_le.mp ((isDouble_iff _).mp h).2).2; linarith
    · rw [hr] at h1; have := (abs_le.mp ((isDouble_iff _).mp h).2).1; linarith

/-- Packing is monotone. -/
theorem pack_mono {p q : Rat} (h : p ≤ q) (s t : Bool) : le (pack s p) (pack t q) = true := by
  have hm := roundDouble_mono h
  have h0 := maxDouble_pos
  rcases pack_cases s p with ⟨a1, a2, a3, a4⟩ | ⟨a1, a2⟩ | ⟨a1, a2⟩ <;>
    rcases pack_cases t q with ⟨b1, b2, b3, b4⟩ | ⟨b1, b2⟩ | ⟨b1, b2⟩
  · rw [a4, b4]; exact decide_eq_true hm
  · rw [a4, b2]; rfl
  · have := (abs_le.mp a1).1; linarith
  · have := (abs_le.mp b1).2; linarith
  · rw [a2, b2]; rfl
  · linarith
  · rw [a2, b4]; rfl
  · rw [a2, b2]; rfl
  · rw [a2, b2]; rfl

theorem ofInt_def (n : Int) : (Arith.ofInt n : F64) = pack false n := rfl

theorem int_signed (n : Int) : (n : Rat) ≠ 0 → decide (n < 0) = decide ((n : Rat) < 0) := by
  intro _
  congr 1
  simp

theorem ofInt_eq {n : Int} (h : |n| ≤ 2 ^ 53) :
    (Arith.ofInt n : F64) = fin (decide (n < 0)) n (isDouble_int h) (int_signed n) := by
  obtain ⟨t, hs, h1, h2, h3⟩ := pack_double (isDouble_int h) false
  rw [ofInt_def, h1]
  refine fin_congr ?_ rfl
  by_cases h0 : (n : Rat) = 0
  · rw [h2 h0]
    have : n = 0 := by exact_mod_cast h0
    subst this
    rfl
  · rw [h3 h0, int_signed n h0]

theorem le_trans' {x y z : F64} (h1 : le x y = true) (h2 : le y z = true) : le x z = true := by
  cases x with
  | nan => cases h1
  | inf a =>
    cases y with
    | nan => cases h1
    | inf b => cases z <;> cases a <;> cases b <;> first | rfl | exact h2 | (cases h1; done)
    | fin b q _ _ => cases a <;> cases z <;> first | rfl | (cases h1; done) | (cases h2; done)
  | fin a p _ _ =>
    cases y with
    | nan => cases h1
    | inf b => cases z <;> cases b <;> first | rfl | exact h2 | (cases h1; done) | (cases h2; done)
    | fin b q _ _ =>
      cases z with
      | nan => cases h2
      | inf c => exact h2
      | fin c r _ _ => exact decide_eq_true ((of_decide_eq_true h1).trans (of_decide_eq_true h2))

theorem lt_of_le' {x y z : F64} (h1 : le x y = true) (h2 : lt y z = true) : lt x z = true := by
  cases x with
  | nan => cases h1
  | inf a =>
    cases y with
    | nan => cases h1
    | inf b => cases z <;> cases a <;> cases b <;> first | rfl | exact h2 | (cases h1; done) | (cases h2; done)
    | fin b q _ _ => cases a <;> cases z <;> first | rfl | exact h2 | (cases h1; done) | (cases h2; done)
  | fin a p _ _ =>
    cases y with
    | nan => cases h1
    | inf b => cases z <;> cases b <;> first | rfl | exact h2 | (cases h1; done) | (cases h2; done)
    | fin b q _ _ =>
      cases z with
      | nan => cases h2
      | inf c => exact h2
      | fin c r _ _ => exact decide_eq_true (lt_of_le_of_lt (of_decide_eq_true h1) (of_decide_eq_true h2))

/-- Comparisons with integers of any size. -/
theorem int_le_int {a b : Int} (h : le (pack false (a : Rat)) (pack false (b : Rat)) = true) (ha : 0 < a) : 0 < b := by
  by_contra hc
  have h0 := maxDouble_pos
  have w1 : IsWide 1 := by have := wide_int (n := 1) (by norm_num); exact_mod_cast this
  have w0 : IsWide 0 := isDouble_wide isDouble_zero
  have r1 : 1 ≤ roundDouble (a : Rat) := le_roundDouble w1 (by exact_mod_cast (by omega : 1 ≤ a))
  have r2 : roundDouble (b : Rat) ≤ 0 := roundDouble_le w0 (by exact_mod_cast (by omega : b ≤ 0))
  rcases pack_cases false (a : Rat) with ⟨a1, a2, a3, a4⟩ | ⟨a1, a2⟩ | ⟨a1, a2⟩ <;>
    rcases pack_cases false (b : Rat) with ⟨b1, b2, b3, b4⟩ | ⟨b1, b2⟩ | ⟨b1, b2⟩
  · rw [a4, b4] at h; have := of_decide_eq_true h; linarith
  · linarith
  · rw [a4, b2] at h; cases h
  · rw [a2, b4] at h; cases h
  · linarith
  · rw [a2, b2] at h; cases h
  · linarith
  · linarith
  · linarith

theorem within_nonneg {x : F64} {a : Int} (h : Within x a) : 0 ≤ a := by
  by_contra hc
  have h1 : le (pack false ((0 : Int) : Rat)) (pack false (a : Rat)) = true := le_trans' h.1 h.2
  have h2 : roundDouble (a : Rat) ≤ -1 := roundDouble_le (d := -1) (by
    have := wide_int (n := -1) (by norm_num); exact_mod_cast this) (by exact_mod_cast (by omega : a ≤ -1))
  have h0 := maxDouble_pos
  rw [← ofInt_def, ofInt_eq (by norm_num)] at h1
  rcases pack_cases false (a : Rat) with ⟨a1, a2, a3, a4⟩ | ⟨a1, a2⟩ | ⟨a1, a2⟩
  · rw [a4] at h1
    have := of_decide_eq_true h1
    push_cast at this
    linarith
  · linarith
  · rw [a2] at h1; cases h1

theorem within_fin {x : F64} {a : Int} (h : Within x a) (ha : a ≤ 2 ^ 53) :
    ∃ s q h1 h2, x = fin s q h1 h2 ∧ 0 ≤ q ∧ q ≤ a := by
  have h0 := within_nonneg h
  obtain ⟨h1, h2⟩ := h
  have hb : |a| ≤ 2 ^ 53 := by rwa [abs_of_nonneg h0]
  rw [ofInt_eq (by norm_num)] at h1
  rw [ofInt_eq hb] at h2
  cases x with
  | nan => cases h1
  | inf s => cases s <;> first | (cases h1; done) | (cases h2; done)
  | fin s q h3 h4 =>
    refine ⟨s, q, h3, h4, rfl, ?_, ?_⟩
    · have := of_decide_eq_true h1; exact_mod_cast this
    · exact of_decide_eq_true h2

theorem fin_within {s : Bool} {q : Rat} {h1 h2} {a : Int} (ha : |a| ≤ 2 ^ 53) (h3 : 0 ≤ q) (h4 : q ≤ a) :
    Within (fin s q h1 h2) a := by
  unfold Within
  rw [ofInt_eq ha, ofInt_eq (by norm_num)]
  exact ⟨decide_eq_true (by exact_mod_cast h3), decide_eq_true h4⟩

/-- The result of packing a number up to an integer. -/
theorem pack_within {q : Rat} {a : Int} (ha : a ≤ 2 ^ 53) (h1 : 0 ≤ q) (h2 : q ≤ a) (s : Bool) : Within (pack s q) a := by
  have h0 : 0 ≤ a := by
    have := h1.trans h2
    exact_mod_cast this
  have hb : |a| ≤ 2 ^ 53 := by rwa [abs_of_nonneg h0]
  have r1 := roundDouble_nonneg h1
  have r2 := roundDouble_le (wide_int hb) h2
  have hm : |roundDouble q| ≤ maxDouble := by
    apply small_max
    rw [abs_of_nonneg r1]
    exact r2.trans (by exact_mod_cast ha)
  rcases pack_cases s q with ⟨_, h3, h4, h5⟩ | ⟨h, _⟩ | ⟨h, _⟩
  · rw [h5]; exact fin_within hb r1 r2
  · have := (abs_le.mp hm).2; linarith
  · have := (abs_le.mp hm).1; linarith

theorem round53_within {q : Rat} {n : Int} (h1 : 0 ≤ q) (h2 : q ≤ n) (hn : n ≤ 2 ^ 53) : 0 ≤ round53 q ∧ round53 q ≤ n := by
  unfold round53
  split
  · rename_i h0; subst h0; exact ⟨le_refl _, h2⟩
  · rename_i h0
    have hq : 0 < q := lt_of_le_of_ne h1 (Ne.symm h0)
    obtain ⟨l1, l2⟩ := ilog2_spec q h0
    rw [abs_of_pos hq] at l1 l2
    refine ⟨?_, ?_⟩
    · have := le_roundAt (e := place53 q) (q := q) (n := 0) (by simpa using h1)
      simpa using this
    · by_cases he : place53 q ≤ 0
      · obtain ⟨d, hd⟩ := Int.eq_ofNat_of_zero_le (show 0 ≤ -place53 q by omega)
        have e : (n : Rat) = ((n * 2 ^ d : Int) : Rat) * (2 : Rat) ^ place53 q := by
          rw [show place53 q = -(d : Int) by omega, zpow_neg, zpow_natCast]
          push_cast
          rw [mul_assoc, mul_inv_cancel₀ (by positivity), _root_.mul_one]
        rw [e]
        apply roundAt_le
        rw [← e]
        exact h2
      · have h3 : (2 : Rat) ^ (53 : Int) ≤ (2 : Rat) ^ ilog2 q := two_le (by unfold place53 at he; omega)
        have h4 : (2 : Rat) ^ (53 : Int) ≤ n := (h3.trans l1).trans h2
        have h5 : n = 2 ^ 53 := by
          apply le_antisymm hn
          have : ((2 ^ 53 : Int) : Rat) ≤ n := by
            calc ((2 ^ 53 : Int) : Rat) = (2 : Rat) ^ (53 : Int) := by norm_num
              _ ≤ n := h4
          exact_mod_cast this
        subst h5
        have h6 : ilog2 q = 53 := by
          have a : (2 : Rat) ^ ilog2 q < (2 : Rat) ^ (54 : Int) := by
            refine lt_of_le_of_lt (l1.trans h2) ?_
            norm_num
          have := lt_of_two_lt a
          unfold place53 at he
          omega
        have e : ((2 ^ 53 : Int) : Rat) = ((2 ^ 52 : Int) : Rat) * (2 : Rat) ^ place53 q := by
          unfold place53
          rw [h6]
          norm_num
        rw [e]
        apply roundAt_le
        rw [← e]
        exact h2

theorem powLoop_two (q : Rat) : powLoop 2 2 1 q = round53 (1 * round53 (q * q)) := rfl

theorem powLoop_three (q : Rat) : powLoop 3 3 1 q = round53 (round53 (1 * q) * round53 (q * q)) := rfl

/-- An integer is rounded to an integer. -/
theorem roundDouble_int (a : Int) : ∃ n : Int, roundDouble (a : Rat) = n := by
  by_cases h : (a : Rat) = 0
  · rw [h, roundDouble_zero]; exact ⟨0, by norm_num⟩
  rw [roundDouble_of h]
  by_cases he : place (a : Rat) ≤ 0
  · obtain ⟨d, hd⟩ := Int.eq_ofNat_of_zero_le (show 0 ≤ -place (a : Rat) by omega)
    refine ⟨a, roundAt_exact (n := a * 2 ^ d) ?_⟩
    rw [show place (a : Rat) = -(d : Int) by omega, zpow_neg, zpow_natCast]
    push_cast
    rw [mul_assoc, mul_inv_cancel₀ (by positivity), _root_.mul_one]
  · obtain ⟨d, hd⟩ := Int.eq_ofNat_of_zero_le (show 0 ≤ place (a : Rat) by omega)
    refine ⟨rne ((a : Rat) / pow2 (place (a : Rat))) * 2 ^ d, ?_⟩
    unfold roundAt
    push_cast
    congr 1
    rw [pow2_eq, hd]
    exact zpow_natCast _ _

theorem mul_one' (x : F64) : mul x (Arith.ofInt 1) = x := by
  rw [ofInt_eq (by norm_num)]
  cases x with
  | nan => rfl
  | inf s =>
    simp only [mul]
    rw [if_neg (by norm_num)]
    cases s <;> rfl
  | fin s q h hs =>
    simp only [mul]
    have e : q * ((1 : Int) : Rat) = q := by norm_num
    rw [e, show (s != decide ((1 : Int) < 0)) = s by cases s <;> rfl]
    exact pack_exact h s hs

theorem div_one' (x : F64) : div x (Arith.ofInt 1) = x := by
  rw [ofInt_eq (by norm_num)]
  cases x with
  | nan => rfl
  | inf s => cases s <;> rfl
  | fin s q h hs =>
    simp only [div]
    have e : q / ((1 : Int) : Rat) = q := by norm_num
    rw [if_neg (by norm_num), e, show (s != decide ((1 : Int) < 0)) = s by cases s <;> rfl]
    exact pack_exact h s hs

theorem round_int' (a : Int) : round (Arith.ofInt a) = Arith.ofInt a := by
  rw [ofInt_def]
  rcases pack_cases false (a : Rat) with ⟨h, h1, h2, h3⟩ | ⟨_, h⟩ | ⟨_, h⟩
  · rw [h3]
    simp only [round]
    obtain ⟨n, hn⟩ := roundDouble_int a
    have e : ratRound (roundDouble (a : Rat)) = roundDouble (a : Rat) := by rw [hn, ratRound_int]
    rw [e]
    exact pack_exact h1 _ h2
  · rw [h]; rfl
  · rw [h]; rfl

/-- The quotient of two integers. -/
theorem div_int {a b : Int} (ha : 0 ≤ a) (ha' : a ≤ 2 ^ 53) (hb : 0 < b) (hb' : b ≤ 2 ^ 53) :
    div (Arith.ofInt a) (Arith.ofInt b) = pack false ((a : Rat) / b) := by
  rw [ofInt_eq (by rwa [abs_of_nonneg ha]), ofInt_eq (by rwa [abs_of_pos hb])]
  simp only [div]
  rw [if_neg (by have : b ≠ 0 := by omega
                 exact_mod_cast this)]
  rw [decide_eq_false (by omega : ¬ a < 0), decide_eq_false (by omega : ¬ b < 0)]
  rfl

theorem tenths_def (n : Int) : (Arith.tenths n : F64) = pack false ((n : Rat) / 10) := by
  show pack false (mkRat n 10) = _
  rw [Rat.mkRat_eq_div]
  norm_num

/-- The laws hold for `float64`. -/
instance laws : Laws F64 where
  bound := 2 ^ 53
  bound_large := le_refl _
  add_int := by
    intro a b ha hb hab
    rw [ofInt_eq ha, ofInt_eq hb, ofInt_def]
    show pack _ _ = _
    rw [show ((a : Rat) + (b : Rat)) = ((a + b : Int) : Rat) by push_cast; rfl]
    obtain ⟨t, hs, h1, h2, h3⟩ := pack_double (isDouble_int hab) (decide (a < 0) && decide (b < 0))
    obtain ⟨t', hs', h1', h2', h3'⟩ := pack_double (isDouble_int hab) false
    rw [h1, h1']
    refine fin_congr ?_ rfl
    by_cases h0 : ((a + b : Int) : Rat) = 0
    · rw [h2 h0, h2' h0]
      have : a + b = 0 := by exact_mod_cast h0
      rcases Int.lt_or_le a 0 with h | h
      · rw [decide_eq_false (by omega : ¬ b < 0), Bool.and_false]
      · rw [decide_eq_false (by omega : ¬ a < 0), Bool.false_and]
    · rw [h3 h0, h3' h0]
  sub_int := by
    intro a b ha hb hab
    rw [ofInt_eq ha, ofInt_eq hb, ofInt_def]
    show pack _ _ = _
    rw [show ((a : Rat) + -(b : Rat)) = ((a - b : Int) : Rat) by push_cast; ring]
    obtain ⟨t, hs, h1, h2, h3⟩ := pack_double (isDouble_int hab) (decide (a < 0) && !decide (b < 0))
    obtain ⟨t', hs', h1', h2', h3'⟩ := pack_double (isDouble_int hab) false
    rw [h1, h1']
    refine fin_congr ?_ rfl
    by_cases h0 : ((a - b : Int) : Rat) = 0
    · rw [h2 h0, h2' h0]
      have : a = b := by
        have : a - b = 0 := by exact_mod_cast h0
        omega
      subst this
      rcases Int.lt_or_le a 0 with h | h
      · rw [decide_eq_true h]; rfl
      · rw [decide_eq_false (by omega : ¬ a < 0), Bool.false_and]
    · rw [h3 h0, h3' h0]
  neg_int := by
    intro a ha h0
    rw [ofInt_eq ha, ofInt_eq (by rwa [abs_neg])]
    refine fin_congr ?_ (by push_cast; rfl)
    rw [← decide_not]
    congr 1
    rw [eq_iff_iff]
    omega
  lt_int := by
    intro a b ha hb
    rw [ofInt_eq ha, ofInt_eq hb]
    show decide _ = decide _
    congr 1
    rw [eq_iff_iff]
    exact Rat.intCast_lt_intCast
  le_int := by
    intro a b ha hb
    rw [ofInt_eq ha, ofInt_eq hb]
    show decide _ = decide _
    congr 1
    rw [eq_iff_iff]
    exact Rat.intCast_le_intCast
  eq_int := by
    intro a b ha hb
    rw [ofInt_eq ha, ofInt_eq hb]
    show decide _ = decide _
    congr 1
    rw [eq_iff_iff]
    exact Rat.intCast_inj
  le_of_lt := by
    intro x y h
    change lt x y = true at h
    show le y x = false
    cases x with
    | nan => cases h
    | inf s => cases y <;> cases s <;> first | rfl | (cases h; done) | (rename_i t; cases t <;> first | rfl | (cases h; done))
    | fin s q _ _ =>
      cases y with
      | nan => cases h
      | inf t => cases t <;> first | rfl | (cases h; done)
      | fin t p _ _ => exact decide_eq_false (not_le.mpr (of_decide_eq_true h))
  eq_comm := by
    intro x y
    show eq x y = eq y x
    cases x <;> cases y <;> first | rfl | (simp only [eq]; exact decide_eq_decide.mpr ⟨Eq.symm, Eq.symm⟩) |
      (rename_i s t; cases s <;> cases t <;> rfl)
  add_zero_mul := by
    intro a b ha hb
    rw [ofInt_eq ha, ofInt_eq hb, ofInt_eq (by norm_num)]
    show add _ (pack _ _) = _
    rw [show (((0 : Int) : Rat) * (b : Rat)) = 0 by norm_num]
    obtain ⟨t, hs, h1, h2, h3⟩ := pack_double isDouble_zero (decide ((0 : Int) < 0) != decide (b < 0))
    rw [h1]
    show pack _ _ = _
    rw [add_zero]
    obtain ⟨u, hu, u1, u2, u3⟩ := pack_double (isDouble_int ha) (decide (a < 0) && t)
    rw [u1]
    refine fin_congr ?_ rfl
    by_cases h0 : (a : Rat) = 0
    · rw [u2 h0]
      have : a = 0 := by exact_mod_cast h0
      subst this
      rfl
    · rw [u3 h0, int_signed a h0]
  lt_asymm := by
    intro x y h
    change lt x y = true at h
    show lt y x = false
    cases x with
    | nan => cases h
    | inf s => cases y <;> cases s <;> first | rfl | (cases h; done) | (rename_i t; cases t <;> first | rfl | (cases h; done))
    | fin s q _ _ =>
      cases y with
      | nan => cases h
      | inf t => cases t <;> first | rfl | (cases h; done)
      | fin t p _ _ => exact decide_eq_false (not_lt.mpr (of_decide_eq_true h).le)
  div_pos := by
    intro a b ha ha' hb hb'
    show le _ (div _ _) = true
    rw [div_int ha.le ha' hb hb']
    exact pack_mono (by
      push_cast
      exact div_nonneg (by exact_mod_cast ha.le) (by exact_mod_cast hb.le)) _ _
  le_trans := fun _ _ _ => le_trans'
  lt_of_le := fun _ _ _ => lt_of_le'
  le_max := decide_eq_true (le_refl _)
  zero_lt_max := by
    rw [ofInt_eq (by norm_num)]
    exact decide_eq_true (by push_cast; exact maxDouble_pos)
  mul_one := fun a => mul_one' _
  div_one := fun a => div_one' _
  round_int := round_int'
  toInt_int := by
    intro a ha
    rw [ofInt_eq ha]
    show toInt _ = a
    simp only [toInt, ratTrunc_int]
    rw [abs_le] at ha
    rw [if_pos ⟨by omega, by omega⟩]
  div_half := by
    intro a b ha hb hb' h
    show le (div _ _) _ = true
    rw [div_int ha (by omega) hb hb', tenths_def]
    apply pack_mono
    have hb'' : (0 : Rat) < (b : Rat) := by exact_mod_cast hb
    have h' : 2 * (a : Rat) ≤ (b : Rat) := by exact_mod_cast h
    rw [div_le_iff₀ hb'']
    push_cast
    linarith
  zero_half := by
    rw [tenths_def, ofInt_def]
    exact pack_mono (by norm_num) _ _
  minus_half := by
    intro x h
    have h1 : le (Arith.tenths (-5) : F64) (Arith.ofInt 0) = true := by
      rw [tenths_def, ofInt_def]
      exact pack_mono (by norm_num) _ _
    by_contra hc
    have hc : Arith.lt x (Arith.tenths (-5)) = true := by simpa using hc
    change lt x (Arith.tenths (-5)) = true at hc
    have h2 := lt_of_le' (le_trans' h1 h) hc
    revert h2
    cases (Arith.tenths (-5) : F64) with
    | nan => intro h; cases h
    | inf s => cases s <;> (intro h; cases h)
    | fin s q _ _ => intro h; exact absurd (of_decide_eq_true h) (lt_irrefl _)
  tenths_le := by
    intro a b h
    rw [tenths_def, tenths_def]
    apply pack_mono
    have : (a : Rat) ≤ (b : Rat) := by exact_mod_cast h
    linarith
  tenths_int := by
    intro a
    rw [tenths_def, ofInt_def]
    congr 1
    push_cast
    linarith
  div_tenths := by
    intro a b t ha ha' hb hb' h
    show le (div _ _) _ = true
    rw [div_int ha ha' hb hb', tenths_def]
    apply pack_mono
    have hb'' : (0 : Rat) < (b : Rat) := by exact_mod_cast hb
    have h' : 10 * (a : Rat) ≤ (t : Rat) * (b : Rat) := by exact_mod_cast h
    rw [div_le_iff₀ hb'']
    linarith
  tenths_div := by
    intro a b t ha ha' hb hb' h
    show le _ (div _ _) = true
    rw [div_int ha ha' hb hb', tenths_def]
    apply pack_mono
    have hb'' : (0 : Rat) < (b : Rat) := by exact_mod_cast hb
    have h' : (t : Rat) * (b : Rat) ≤ 10 * (a : Rat) := by exact_mod_cast h
    rw [le_div_iff₀ hb'']
    linarith
  div_mono := by
    intro a a' b b' ha haa ha' hb hbb hb'
    show le (div _ _) (div _ _) = true
    rw [div_int ha (_root_.le_trans haa ha') (lt_of_lt_of_le hb hbb) hb',
      div_int (_root_.le_trans ha haa) ha' hb (_root_.le_trans hbb hb')]
    apply pack_mono
    exact div_le_div₀ (by exact_mod_cast _root_.le_trans ha haa) (by exact_mod_cast haa) (by exact_mod_cast hb) (by exact_mod_cast hbb)
  add_within := by
    intro x y a b h1 h2 h
    have ha := within_nonneg h1
    have hb := within_nonneg h2
    obtain ⟨s, p, _, _, rfl, p1, p2⟩ := within_fin h1 (by omega)
    obtain ⟨t, q, _, _, rfl, q1, q2⟩ := within_fin h2 (by omega)
    exact pack_within h (add_nonneg p1 q1) (by push_cast; exact add_le_add p2 q2) _
  mul_within := by
    intro x y a b h1 h2 ha hb h
    obtain ⟨s, p, _, _, rfl, p1, p2⟩ := within_fin h1 ha
    obtain ⟨t, q, _, _, rfl, q1, q2⟩ := within_fin h2 hb
    exact pack_within h (mul_nonneg p1 q1) (by push_cast; exact mul_le_mul p2 q2 q1 (p1.trans p2)) _
  square_within := by
    intro x a h1 h
    have ha := within_nonneg h1
    obtain ⟨s, p, _, _, rfl, p1, p2⟩ := within_fin h1 (by nlinarith)
    show Within (pack _ (powLoop 2 2 1 p)) _
    rw [powLoop_two]
    have e : p * p ≤ ((a ^ 2 : Int) : Rat) := by
      push_cast
      rw [← pow_two]
      exact pow_le_pow_left₀ p1 p2 2
    obtain ⟨r1, r2⟩ := round53_within (mul_nonneg p1 p1) e h
    obtain ⟨r3, r4⟩ := round53_within (q := 1 * round53 (p * p)) (by rw [_root_.one_mul]; exact r1) (by rw [_root_.one_mul]; exact r2) h
    exact pack_within h r3 r4 _
  cube_within := by
    intro x a h1 h
    have ha := within_nonneg h1
    have ha3 : a ≤ a ^ 3 := by
      rcases Int.lt_or_le 0 a with h0 | h0
      · calc a = a ^ 1 := (pow_one a).symm
          _ ≤ a ^ 3 := pow_le_pow_right₀ (by omega) (by omega)
      · have : a = 0 := by omega
        subst this; norm_num
    have ha2 : a ^ 2 ≤ a ^ 3 := by
      rcases Int.lt_or_le 0 a with h0 | h0
      · exact pow_le_pow_right₀ (by omega) (by omega)
      · have : a = 0 := by omega
        subst this; norm_num
    obtain ⟨s, p, _, _, rfl, p1, p2⟩ := within_fin h1 (by omega)
    show Within (pack _ (powLoop 3 3 1 p)) _
    rw [powLoop_three]
    have e : p * p ≤ ((a ^ 2 : Int) : Rat) := by
      push_cast
      rw [← pow_two]
      exact pow_le_pow_left₀ p1 p2 2
    obtain ⟨r1, r2⟩ := round53_within (mul_nonneg p1 p1) e (by omega)
    obtain ⟨u1, u2⟩ := round53_within (q := 1 * p) (by rw [_root_.one_mul]; exact p1) (by rw [_root_.one_mul]; exact p2)
      (show a ≤ 2 ^ 53 by omega)
    have e3 : round53 (1 * p) * round53 (p * p) ≤ ((a ^ 3 : Int) : Rat) := by
      have := mul_le_mul u2 r2 r1 (u1.trans u2)
      push_cast at this ⊢
      calc _ ≤ (a : Rat) * (a : Rat) ^ 2 := this
        _ = _ := by ring
    obtain ⟨r3, r4⟩ := round53_within (mul_nonneg u1 r1) e3 h
    exact pack_within h r3 r4 _
  abs_within := by
    intro x a h1 h2 ha
    have h0 : 0 ≤ a := by
      by_contra hc
      have := int_le_int (le_trans' h1 h2) (by omega)
      omega
    have hb : |a| ≤ 2 ^ 53 := by rwa [abs_of_nonneg h0]
    rw [ofInt_eq (by rwa [abs_neg])] at h1
    rw [ofInt_eq hb] at h2
    cases x with
    | nan => cases h1
    | inf s => cases s <;> first | (cases h1; done) | (cases h2; done)
    | fin s q _ _ =>
      refine fin_within hb (abs_nonneg q) (abs_le.mpr ⟨?_, ?_⟩)
      · have := of_decide_eq_true h1; push_cast at this; exact this
      · exact of_decide_eq_true h2
  sub_zero_square := by
    intro x p a b h1 h2 h3
    obtain ⟨h2, _⟩ := h2
    rw [ofInt_eq (by norm_num)] at h2 h3
    have hp : ∃ s, p = zero s := by
      cases p with
      | nan => cases h2
      | inf s => cases s <;> first | (cases h2; done) | (cases h3; done)
      | fin s q _ _ =>
        refine ⟨s, fin_congr rfl ?_⟩
        have a1 := of_decide_eq_true h2
        have a2 := of_decide_eq_false h3
        push_cast at a1 a2
        linarith
    obtain ⟨s, rfl⟩ := hp
    have e : Arith.pow (zero s) 2 = zero false := by
      show pack (s && false) (powLoop 2 2 1 0) = _
      rw [powLoop_two, Bool.and_false]
      have r0 : round53 0 = 0 := by unfold round53; rw [if_pos rfl]
      rw [mul_zero, r0, mul_zero, r0]
      exact pack_exact isDouble_zero false _
    rw [e]
    have e2 : Arith.sub x (zero false) = x := by
      show add x (neg (zero false)) = x
      cases x with
      | nan => rfl
      | inf t => rfl
      | fin t q h hs =>
        show pack (t && true) (q + -0) = _
        rw [Bool.and_true, neg_zero, add_zero]
        exact pack_exact h t hs
    rw [e2]
    exact h1
  within_lt_max := by
    intro x a h1 ha
    obtain ⟨s, p, _, _, rfl, p1, p2⟩ := within_fin h1 ha
    refine decide_eq_true ?_
    have h3 : p ≤ 2 ^ 53 := p2.trans (by exact_mod_cast ha)
    refine lt_of_le_of_lt h3 ?_
    rw [max_eq]
    calc (2 : Rat) ^ 53 = (2 : Rat) ^ (53 : Int) := by norm_num
      _ < (2 : Rat) ^ (971 : Int) := two_lt (by norm_num)
      _ ≤ _ := le_mul_of_one_le_left (two_pos _).le (by norm_num)

end F64
end Verif.Go
