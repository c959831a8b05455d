import Verif.Model.Writer
import Verif.Spec.Utf8

/-! # The UTF-8 routines meet their specification -/

namespace Verif.Proofs
open Verif.Go Verif.Model Verif.Spec

theorem and63 (n : Nat) : n &&& 0x3F = n % 64 := Nat.and_two_pow_sub_one_eq_mod n 6
theorem and31 (n : Nat) : n &&& 0x1F = n % 32 := Nat.and_two_pow_sub_one_eq_mod n 5
theorem and15 (n : Nat) : n &&& 0xF = n % 16 := Nat.and_two_pow_sub_one_eq_mod n 4
theorem and7 (n : Nat) : n &&& 7 = n % 8 := Nat.and_two_pow_sub_one_eq_mod n 3

theorem or_add (i a b : Nat) (h : b < 2 ^ i) : (2 ^ i * a) ||| b = 2 ^ i * a + b :=
  (Nat.two_pow_add_eq_or_of_lt h a).symm

theorem or80 (b : Nat) (h : b < 64) : 0x80 ||| b = 0x80 + b := or_add 6 2 b h
theorem orC0 (b : Nat) (h : b < 32) : 0xC0 ||| b = 0xC0 + b := or_add 5 6 b h
theorem orE0 (b : Nat) (h : b < 16) : 0xE0 ||| b = 0xE0 + b := or_add 4 14 b h
theorem orF0 (b : Nat) (h : b < 8) : 0xF0 ||| b = 0xF0 + b := or_add 3 30 b h

theorem uint32_scalar {r : Rune} (h : IsScalar r) : uint32 r = r.toNat := by
  obtain ⟨h1, h2, _⟩ := h
  unfold uint32
  rw [Int.emod_eq_of_lt h1 (by omega)]

/-- EncodeRune writes the encoding of scalar values. -/
theorem encodeRune_scalar {r : Rune} (h : IsScalar r) : encodeRune r = utf8 r := by
  unfold encodeRune utf8 utf8Nat
  rw [uint32_scalar h]
  obtain ⟨h1, h2, h3⟩ := h
  have hn : r = (r.toNat : Int) := by omega
  generalize r.toNat = n at *
  subst hn
  simp only [Nat.shiftRight_eq_div_pow, and63]
  by_cases c1 : n ≤ 0x7F
  · rw [if_pos c1, if_pos (show n < 0x80 by omega)]
    congr 1; omega
  rw [if_neg c1, if_neg (show ¬ n < 0x80 by omega)]
  by_cases c2 : n ≤ 0x7FF
  · rw [if_pos c2, if_pos (show n < 0x800 by omega), orC0 _ (by omega), or80 _ (by omega)]
    congr 1
    · omega
    · congr 1; omega
  rw [if_neg c2, if_neg (show ¬ n < 0x800 by omega), if_neg (by simp; omega)]
  by_cases c3 : n ≤ 0xFFFF
  · rw [if_pos c3, if_pos (show n < 0x10000 by omega), orE0 _ (by omega), or80 _ (by omega), or80 _ (by omega)]
    congr 1
    · omega
    · congr 1
      · omega
      · congr 1; omega
  rw [if_neg c3, if_neg (show ¬ n < 0x10000 by omega), orF0 _ (by omega), or80 _ (by omega), or80 _ (by omega),
    or80 _ (by omega)]
  congr 1
  · omega
  · congr 1
    · omega
    · congr 1
      · omega
      · congr 1; omega

/-- A rune is an `int32`. -/
def IsInt32 (r : Rune) : Prop := -(2 ^ 31) ≤ r ∧ r < 2 ^ 31

/-- EncodeRune writes U+FFFD for other runes. -/
theorem encodeRune_other {r : Rune} (hr : IsInt32 r) (h : ¬ IsScalar r) : encodeRune r = utf8 0xFFFD := by
  have e : (uint32 r : Int) = r % 2 ^ 32 := by unfold uint32; omega
  obtain ⟨hr1, hr2⟩ := hr
  unfold IsScalar at h
  have e' : 0x10FFFF < uint32 r ∨ (0xD800 ≤ uint32 r ∧ uint32 r ≤ 0xDFFF) := by omega
  unfold encodeRune
  generalize uint32 r = i at *
  simp only
  rw [if_neg (by omega), if_neg (by omega), if_pos (by simp; omega)]
  decide

theorem runeBytes_eq (r : Rune) : runeBytes r = encodeRune r := by
  unfold runeBytes
  split
  · unfold encodeRune
    rw [if_pos (by omega)]
  · rfl

theorem runeLen_scalar {r : Rune} (h : IsScalar r) : runeLen r = (utf8 r).length := by
  obtain ⟨h1, h2, h3⟩ := h
  have hn : r = (r.toNat : Int) := by omega
  unfold runeLen utf8 utf8Nat
  generalize r.toNat = n at *
  subst hn
  rw [if_neg (by omega)]
  by_cases c1 : n ≤ 0x7F
  · rw [if_pos (show (n:Int) ≤ 0x7F by omega), if_pos (show n < 0x80 by omega)]; rfl
  rw [if_neg (show ¬ (n:Int) ≤ 0x7F by omega), if_neg (show ¬ n < 0x80 by omega)]
  by_cases c2 : n ≤ 0x7FF
  · rw [if_pos (show (n:Int) ≤ 0x7FF by omega), if_pos (show n < 0x800 by omega)]; rfl
  rw [if_neg (show ¬ (n:Int) ≤ 0x7FF by omega), if_neg (show ¬ n < 0x800 by omega), if_neg (by simp; omega)]
  by_cases c3 : n ≤ 0xFFFF
  · rw [if_pos (show (n:Int) ≤ 0xFFFF by omega), if_pos (show n < 0x10000 by omega)]; rfl
  rw [if_neg (show ¬ (n:Int) ≤ 0xFFFF by omega), if_neg (show ¬ n < 0x10000 by omega), if_pos (by omega)]; rfl

theorem utf8_length (r : Rune) : 1 ≤ (utf8 r).length := by
  unfold utf8 utf8Nat
  repeat' split
  all_goals simp

theorem shl (n k : Nat) : n <<< k = 2 ^ k * n := by rw [Nat.shiftLeft_eq, Nat.mul_comm]

theorem bits2 (a b : Nat) : ((a % 32) <<< 6) ||| (b % 64) = a % 32 * 64 + b % 64 := by
  rw [shl, or_add _ _ _ (by omega)]; omega

theorem bits3 (a b c : Nat) :
    ((a % 16) <<< 12) ||| ((b % 64) <<< 6) ||| (c % 64) = a % 16 * 4096 + b % 64 * 64 + c % 64 := by
  rw [shl, shl, or_add _ _ _ (by omega),
    show 2 ^ 12 * (a % 16) + 2 ^ 6 * (b % 64) = 2 ^ 6 * (64 * (a % 16) + b % 64) by omega,
    or_add _ _ _ (by omega)]
  omega

theorem bits4 (a b c d : Nat) :
    ((a % 8) <<< 18) ||| ((b % 64) <<< 12) ||| ((c % 64) <<< 6) ||| (d % 64) =
      a % 8 * 262144 + b % 64 * 4096 + c % 64 * 64 + d % 64 := by
  rw [shl, shl, shl, or_add _ _ _ (by omega),
    show 2 ^ 18 * (a % 8) + 2 ^ 12 * (b % 64) = 2 ^ 12 * (64 * (a % 8) + b % 64) by omega,
    or_add _ _ _ (by omega),
    show 2 ^ 12 * (64 * (a % 8) + b % 64) + 2 ^ 6 * (c % 64) =
      2 ^ 6 * (64 * (64 * (a % 8) + b % 64) + c % 64) by omega,
    or_add _ _ _ (by omega)]
  omega

/-- The result of decodeRune when the bytes do not begin with an encoded rune. -/
def isErr (x : Rune × Nat) : Prop := x = (runeError, 1)

/-- DecodeRune reads an encoded rune back. -/
theorem decodeRune_utf8 {r : Rune} (h : IsScalar r) (t : List Nat) :
    decodeRune (utf8 r ++ t) = (r, (utf8 r).length) := by
  obtain ⟨h1, h2, h3⟩ := h
  have hn : r = (r.toNat : Int) := by omega
  unfold utf8 utf8Nat
  generalize r.toNat = n at *
  subst hn
  by_cases c1 : n < 0x80
  · rw [if_pos c1]
    simp [decodeRune, c1]
  rw [if_neg c1]
  by_cases c2 : n < 0x800
  · rw [if_pos c2]
    simp only [decodeRune, List.cons_append, and63, and31]
    rw [if_neg (by omega), if_neg (by simp; omega), if_neg (by
      unfold acceptRange
      rw [if_neg (by simp; omega), if_neg (by simp; omega), if_neg (by simp; omega),
        if_neg (by simp; omega)]
      simp; omega), if_pos (by omega), bits2]
    refine Prod.ext ?_ rfl
    show ((_ : Nat) : Int) = _
    congr 1; omega
  rw [if_neg c2]
  by_cases c3 : n < 0x10000
  · rw [if_pos c3]
    simp only [decodeRune, List.cons_append, and63, and15]
    rw [if_neg (by omega), if_neg (by simp; omega), if_neg (by
      unfold acceptRange
      split
      · simp at *; omega
      · split
        · simp at *; omega
        · rw [if_neg (by simp; omega), if_neg (by simp; omega)]
          simp; omega), if_neg (by omega), if_neg (by simp; omega), if_pos (by omega), bits3]
    refine Prod.ext ?_ rfl
    show ((_ : Nat) : Int) = _
    congr 1; omega
  rw [if_neg c3]
  simp only [decodeRune, List.cons_append, and63, and7]
  rw [if_neg (by omega), if_neg (by simp; omega), if_neg (by
    unfold acceptRange
    rw [if_neg (by simp; omega), if_neg (by simp; omega)]
    split
    · simp at *; omega
    · split
      · simp at *; omega
      · simp; omega), if_neg (by omega), if_neg (by simp; omega), if_neg (by omega),
    if_neg (by simp; omega), bits4]
  refine Prod.ext ?_ rfl
  show ((_ : Nat) : Int) = _
  congr 1; omega

theorem congrList2 {a b a' b' : Nat} {l : List Nat} (h1 : a = a') (h2 : b = b') :
    a :: b :: l = a' :: b' :: l := by rw [h1, h2]
theorem congrList3 {a b c a' b' c' : Nat} {l : List Nat} (h1 : a = a') (h2 : b = b') (h3 : c = c') :
    a :: b :: c :: l = a' :: b' :: c' :: l := by rw [h1, h2, h3]
theorem congrList4 {a b c d a' b' c' d' : Nat} {l : List Nat} (h1 : a = a') (h2 : b = b') (h3 : c = c')
    (h4 : d = d') : a :: b :: c :: d :: l = a' :: b' :: c' :: d' :: l := by rw [h1, h2, h3, h4]

theorem starts_of (n : Nat) (s t : List Nat) (h : IsScalar (n : Int)) (e : s = utf8Nat n ++ t) :
    ∃ r t, IsScalar r ∧ s = utf8 r ++ t := ⟨n, t, h, by simpa [utf8] using e⟩

/-- DecodeRune reports an error if and only if no encoded rune starts here. -/
theorem decodeRune_err (b : Nat) (s : List Nat) (h : ¬ ∃ r t, IsScalar r ∧ b :: s = utf8 r ++ t) :
    decodeRune (b :: s) = (runeError, 1) := by
  apply Classical.byContradiction
  intro hd
  apply h
  clear h
  simp only [decodeRune] at hd
  by_cases c1 : b < 0x80
  · exact starts_of b _ s ⟨by omega, by omega, by omega⟩ (by simp [utf8Nat, c1])
  rw [if_neg c1] at hd
  by_cases c2 : (b < 0xC2 || b > 0xF4) = true
  · rw [if_pos c2] at hd; exact absurd rfl hd
  rw [if_neg c2] at hd
  simp at c2
  cases s with
  | nil => exact absurd rfl hd
  | cons b1 s =>
    simp only at hd
    by_cases c3 : (b1 < (acceptRange b).1 || (acceptRange b).2 < b1) = true
    · rw [if_pos c3] at hd; exact absurd rfl hd
    rw [if_neg c3] at hd
    simp at c3
    have hb1 : 0x80 ≤ b1 ∧ b1 ≤ 0xBF ∧ (b = 0xE0 → 0xA0 ≤ b1) ∧ (b = 0xED → b1 ≤ 0x9F) ∧
        (b = 0xF0 → 0x90 ≤ b1) ∧ (b = 0xF4 → b1 ≤ 0x8F) := by
      revert c3
      unfold acceptRange
      repeat' split
      all_goals simp_all
      all_goals omega
    by_cases c4 : b ≤ 0xDF
    · refine starts_of ((b - 0xC0) * 64 + (b1 - 0x80)) _ s ⟨by omega, by omega, by omega⟩ ?_
      unfold utf8Nat
      rw [if_neg (by omega), if_pos (by omega)]
      simp only [List.cons_append, List.nil_append]
      exact congrList2 (by omega) (by omega)
    rw [if_neg c4] at hd
    cases s with
    | nil => exact absurd rfl hd
    | cons b2 s =>
      simp only at hd
      by_cases c5 : (b2 < 0x80 || 0xBF < b2) = true
      · rw [if_pos c5] at hd; exact absurd rfl hd
      rw [if_neg c5] at hd
      simp at c5
      by_cases c6 : b ≤ 0xEF
      · refine starts_of ((b - 0xE0) * 4096 + (b1 - 0x80) * 64 + (b2 - 0x80)) _ s
          ⟨by omega, by omega, by omega⟩ ?_
        unfold utf8Nat
        rw [if_neg (by omega), if_neg (by omega), if_pos (by omega)]
        simp only [List.cons_append, List.nil_append]
        exact congrList3 (by omega) (by omega) (by omega)
      rw [if_neg c6] at hd
      cases s with
      | nil => exact absurd rfl hd
      | cons b3 s =>
        simp only at hd
        by_cases c7 : (b3 < 0x80 || 0xBF < b3) = true
        · rw [if_pos c7] at hd; exact absurd rfl hd
        simp at c7
        refine starts_of ((b - 0xF0) * 262144 + (b1 - 0x80) * 4096 + (b2 - 0x80) * 64 + (b3 - 0x80)) _ s
          ⟨by omega, by omega, by omega⟩ ?_
        unfold utf8Nat
        rw [if_neg (by omega), if_neg (by omega), if_neg (by omega)]
        simp only [List.cons_append, List.nil_append]
        exact congrList4 (by omega) (by omega) (by omega) (by omega)

/-- The loop of the conversion: enough rounds. -/
theorem decodeLoop_reads {s : List Nat} {items : List (Option Rune)} (h : Reads s items) :
    ∀ fuel, s.length ≤ fuel → decodeLoop fuel s = items.map (fun o => o.getD runeError) := by
  induction h with
  | nil => intro fuel _; cases fuel <;> rfl
  | @rune r s items hr _ ih =>
    intro fuel hf
    have hl := utf8_length r
    rw [List.length_append] at hf
    cases hu : utf8 r with
    | nil => rw [hu] at hl; simp at hl
    | cons b u =>
      cases fuel with
      | zero => omega
      | succ fuel =>
        have hd := decodeRune_utf8 hr s
        rw [hu] at hd
        show (decodeRune (b :: u ++ s)).1 :: decodeLoop fuel ((b :: u ++ s).drop (decodeRune (b :: u ++ s)).2) = _
        rw [hd]
        simp only [List.map_cons, Option.getD_some, List.cons.injEq, true_and]
        rw [List.drop_left]
        exact ih fuel (by omega)
  | @invalid b s items hn _ ih =>
    intro fuel hf
    cases fuel with
    | zero => simp at hf
    | succ fuel =>
      show (decodeRune (b :: s)).1 :: decodeLoop fuel ((b :: s).drop (decodeRune (b :: s)).2) = _
      rw [decodeRune_err b s hn]
      simp only [List.map_cons, Option.getD_none, List.cons.injEq, true_and]
      exact ih fuel (by simpa using hf)

/-- Every byte string can be read. -/
theorem reads_exists : ∀ (n : Nat) (s : List Nat), s.length ≤ n → ∃ items, Reads s items
  | _, [], _ => ⟨[], .nil⟩
  | 0, _ :: _, h => by simp at h
  | n + 1, b :: s, h => by
    by_cases hs : ∃ r t, IsScalar r ∧ b :: s = utf8 r ++ t
    · obtain ⟨r, t, hr, e⟩ := hs
      have hl := utf8_length r
      have hlen := congrArg List.length e
      rw [List.length_append] at hlen
      obtain ⟨items, hi⟩ := reads_exists n t (by omega)
      exact ⟨_, e ▸ Reads.rune r hr hi⟩
    · obtain ⟨items, hi⟩ := reads_exists n s (by simpa using h)
      exact ⟨_, .invalid b hs hi⟩

/-- In only one way. -/
theorem reads_unique {s : List Nat} {i : List (Option Rune)} (h : Reads s i) :
    ∀ {j : List (Option Rune)}, Reads s j → i = j := by
  induction h with
  | nil =>
    intro j hj
    generalize hs : ([] : List Nat) = s at hj
    cases hj with
    | nil => rfl
    | rune r hr _ =>
      have hl := utf8_length r
      have := congrArg List.length hs
      rw [List.length_append, List.length_nil] at this; omega
    | invalid => cases hs
  | @rune r s items hr _ ih =>
    intro j hj
    generalize hs : utf8 r ++ s = s' at hj
    cases hj with
    | nil =>
      have hl := utf8_length r
      have := congrArg List.length hs
      rw [List.length_append, List.length_nil] at this; omega
    | @rune r' t items' hr' hj' =>
      have e1 := decodeRune_utf8 hr s
      have e2 := decodeRune_utf8 hr' t
      rw [hs, e2] at e1
      have e3 : r' = r := congrArg Prod.fst e1
      subst e3
      have := List.append_cancel_left hs
      subst this
      rw [ih hj']
    | @invalid b t items' hn hj' => exact absurd ⟨r, s, hr, hs.symm⟩ hn
  | @invalid b s items hn _ ih =>
    intro j hj
    generalize hs : b :: s = s' at hj
    cases hj with
    | nil => cases hs
    | @rune r t items' hr hj' => exact absurd ⟨r, t, hr, hs⟩ hn
    | @invalid b' t items' hn' hj' => cases hs; rw [ih hj']

theorem stringRunes_reads {s : List Nat} {items : List (Option Rune)} (h : Reads s items) :
    stringRunes s = items.map (fun o => o.getD runeError) := decodeLoop_reads h _ (Nat.le_refl _)

/-- The encoding of a text reads as the text. -/
theorem reads_utf8s (rs : List Rune) (h : ∀ r ∈ rs, IsScalar r) : Reads (utf8s rs) (rs.map some) := by
  induction rs with
  | nil => exact .nil
  | cons r rs ih =>
    exact .rune r (h r (by simp)) (ih (fun x hx => h x (by simp [hx])))

theorem stringRunes_utf8s (rs : List Rune) (h : ∀ r ∈ rs, IsScalar r) : stringRunes (utf8s rs) = rs := by
  rw [stringRunes_reads (reads_utf8s rs h), List.map_map]
  exact List.map_id rs

/-- What is read back is made of scalar values. -/
theorem reads_scalar {s : List Nat} {items : List (Option Rune)} (h : Reads s items) :
    ∀ r, some r ∈ items → IsScalar r := by
  induction h with
  | nil => intro r hr; simp at hr
  | rune r hr _ ih =>
    intro x hx
    rcases List.mem_cons.mp hx with e | e
    · cases e; exact hr
    · exact ih x e
  | invalid b _ _ ih =>
    intro x hx
    rcases List.mem_cons.mp hx with e | e
    · cases e
    · exact ih x e

theorem writeRunesLoop_eq (rs : List Rune) : ∀ buf, writeRunesLoop rs buf = buf ++ rs.flatMap encodeRune := by
  induction rs with
  | nil => intro buf; simp [writeRunesLoop]
  | cons r rs ih => intro buf; simp [writeRunesLoop, ih, runeBytes_eq]

end Verif.Proofs
