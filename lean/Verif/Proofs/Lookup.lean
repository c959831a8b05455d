import Verif.Proofs.Width

namespace Verif.Proofs
open Verif.Go Verif.Model Verif.Spec

theorem mapM_ok {α β : Type} (f : α → Res β) (g : α → β) :
    ∀ l : List α, (∀ x ∈ l, f x = .ok (g x)) → l.mapM f = .ok (l.map g) := by
  intro l
  induction l with
  | nil => intro _; rfl
  | cons a l ih =>
    intro h
    rw [List.mapM_cons, h a (by simp), ih (fun x hx => h x (by simp [hx]))]
    rfl

/-- Width in the default mode. -/
abbrev plainWidth (r : Rune) : Int := displayWidth false false 2 r

theorem displayWidth_plain (b : Bool) (n : Int) (r : Rune) : displayWidth false b n r = plainWidth r := by
  simp [displayWidth]

theorem plainWidth_bounds (r : Rune) :
    0 ≤ plainWidth r ∧ plainWidth r ≤ 4 ∧ (plainWidth r = 4 → r = 0x2E3B) := by
  unfold plainWidth displayWidth
  repeat' split
  all_goals simp_all

theorem emod4_eq {x : Int} (h0 : 0 ≤ x) (h1 : x ≤ 4) (h2 : x ≠ 4) : x % 4 = x :=
  Int.emod_eq_of_lt h0 (by omega)

theorem plainWidth_mod (r : Rune) (h : r ≠ 0x2E3B) : plainWidth r % 4 = plainWidth r :=
  emod4_eq (plainWidth_bounds r).1 (plainWidth_bounds r).2.1 (fun e => h ((plainWidth_bounds r).2.2 e))

theorem plainWidth_special : plainWidth 0x2E3B = 4 := by decide +kernel

/-- The byte that packs four widths. -/
def byteOf (i : Nat) : Nat :=
  uint8 (plainWidth ((i : Int) * 4)) ||| ((uint8 (plainWidth ((i : Int) * 4 + 1)) <<< 2) % 256) |||
    ((uint8 (plainWidth ((i : Int) * 4 + 2)) <<< 4) % 256) |||
    ((uint8 (plainWidth ((i : Int) * 4 + 3)) <<< 6) % 256)

theorem packByte_eq (o : WOptions) (h : o.eastAsian = false) (i : Nat) : packByte o i = .ok (byteOf i) := by
  unfold packByte
  simp only [runeWidth_spec, h, displayWidth_plain, ok_bind, pure_eq_ok]
  rfl

theorem pack4 : ∀ a b c : Fin 4, ∀ d : Fin 5,
    (let x := a.val ||| ((b.val <<< 2) % 256) ||| ((c.val <<< 4) % 256) ||| ((d.val <<< 6) % 256);
      (x >>> (0 * 2)) &&& 3 = a.val ∧ (x >>> (1 * 2)) &&& 3 = b.val ∧ (x >>> (2 * 2)) &&& 3 = c.val ∧
      (x >>> (3 * 2)) &&& 3 = d.val % 4) := by decide +kernel

theorem uint8_small {x : Int} (h : 0 ≤ x) (h' : x ≤ 4) : uint8 x = x.toNat := by
  unfold uint8; congr 1; omega

theorem toNat_mod {x : Int} (h : 0 ≤ x) (h' : x < 4) : ((x.toNat : Nat) : Int) = x % 4 := by omega

theorem toNat_mod4 {x : Int} (h : 0 ≤ x) : ((x.toNat % 4 : Nat) : Int) = x % 4 := by omega

theorem byteOf_lookup (i k : Nat) (hk : k < 4) :
    (((byteOf i >>> (k * 2)) &&& 3 : Nat) : Int) = plainWidth ((i : Int) * 4 + k) % 4 := by
  have hb := fun r => plainWidth_bounds r
  have small : ∀ r : Int, r ≠ 0x2E3B → plainWidth r < 4 := by
    intro r hr
    have := hb r
    have h2 : plainWidth r ≠ 4 := fun h => hr (this.2.2 h)
    omega
  have ha := small ((i : Int) * 4) (by omega)
  have hb1 := small ((i : Int) * 4 + 1) (by omega)
  have hc := small ((i : Int) * 4 + 2) (by omega)
  have key := pack4 ⟨(plainWidth ((i : Int) * 4)).toNat, by have := hb ((i : Int) * 4); omega⟩
    ⟨(plainWidth ((i : Int) * 4 + 1)).toNat, by have := hb ((i : Int) * 4 + 1); omega⟩
    ⟨(plainWidth ((i : Int) * 4 + 2)).toNat, by have := hb ((i : Int) * 4 + 2); omega⟩
    ⟨(plainWidth ((i : Int) * 4 + 3)).toNat, by have := hb ((i : Int) * 4 + 3); omega⟩
  simp only at key
  have p0 := hb ((i : Int) * 4)
  have p1 := hb ((i : Int) * 4 + 1)
  have p2 := hb ((i : Int) * 4 + 2)
  have p3 := hb ((i : Int) * 4 + 3)
  unfold byteOf
  rw [uint8_small p0.1 p0.2.1, uint8_small p1.1 p1.2.1, uint8_small p2.1 p2.2.1, uint8_small p3.1 p3.2.1]
  obtain ⟨k0, k1, k2, k3⟩ := key
  have hcases : k = 0 ∨ k = 1 ∨ k = 2 ∨ k = 3 := by omega
  rcases hcases with h | h | h | h <;> subst h
  · rw [k0]; simpa using toNat_mod p0.1 ha
  · rw [k1]; simpa using toNat_mod p1.1 hb1
  · rw [k2]; simpa using toNat_mod p2.1 hc
  · rw [k3]; simpa using toNat_mod4 p3.1

/-- The table built by the code. -/
def theTable : List Nat := (List.range lookupSize).map byteOf

theorem build_eq (o : WOptions) (h : o.eastAsian = false) : buildLookupTable o = .ok theTable :=
  mapM_ok _ _ _ (fun i _ => packByte_eq o h i)

theorem map_range_get (f : Nat → Nat) (n i : Nat) (h : i < n) :
    index ((List.range n).map f) (i : Int) = .ok (f i) := by
  rw [index_ok (by simpa using h)]
  simp

theorem map_range_get_out (f : Nat → Nat) (n : Nat) (i : Int) (h : i < 0 ∨ (n : Int) ≤ i) :
    index ((List.range n).map f) i = .error .index := by
  unfold index
  by_cases c : i < 0
  · rw [if_pos c]
  · rw [if_neg c]
    have : ((List.range n).map f)[i.toNat]? = none := by
      rw [List.getElem?_eq_none_iff]; simp; omega
    rw [this]

theorem lookupSize_eq : (lookupSize : Int) = 0x44000 := by decide

theorem lookup_in (r : Rune) (h0 : 0 ≤ r) (h1 : r ≤ 0x10FFFF) :
    lookupRune theTable r = .ok (plainWidth r % 4) := by
  unfold lookupRune
  have hs : r >>> 2 = ((r / 4).toNat : Int) := by
    rw [Int.shiftRight_eq_div_pow]
    omega
  rw [hs]
  unfold theTable
  have hsz := lookupSize_eq
  rw [map_range_get byteOf lookupSize _ (by omega)]
  simp only [ok_bind, pure_eq_ok]
  rw [byteOf_lookup _ _ (by omega)]
  congr 3
  omega

theorem lookup_out (r : Rune) (h : r < 0 ∨ 0x10FFFF < r) : lookupRune theTable r = .error .index := by
  unfold lookupRune
  have hs : r >>> 2 = r / 4 := by
    rw [Int.shiftRight_eq_div_pow]; rfl
  have hsz := lookupSize_eq
  rw [hs]
  unfold theTable
  rw [map_range_get_out byteOf lookupSize _ (by omega)]
  rfl

/-! ## Package variables -/

/-- The package variables are as they were at start, except that the table may have been built. -/
def GoodGlobals (g : WGlobals) : Prop :=
  g.defaults = WGlobals.init.defaults ∧ (g.table = none ∨ g.table = some theTable)

theorem goodGlobals_init : GoodGlobals WGlobals.init := ⟨rfl, Or.inl rfl⟩

theorem ensureTable_good {g : WGlobals} (h : GoodGlobals g) :
    ∃ g', ensureTable g = .ok (theTable, g') ∧ GoodGlobals g' := by
  unfold ensureTable
  rcases h.2 with h2 | h2
  · rw [h2]
    have hd : g.defaults.eastAsian = false := by rw [h.1]; rfl
    simp only [optionsWithDefaults, List.length_nil, if_true, build_eq _ hd, ok_bind, pure_eq_ok]
    exact ⟨_, rfl, h.1, Or.inr rfl⟩
  · rw [h2]
    exact ⟨g, rfl, h⟩

/-- The settings that result from a list of options. -/
def settings (opts : List WOption) : WOptions := opts.foldl WOption.apply ⟨false, false, 2⟩

theorem optionsWithDefaults_good {g : WGlobals} (h : GoodGlobals g) (opts : List WOption) :
    optionsWithDefaults g opts = (settings opts, g) := by
  unfold optionsWithDefaults settings
  have hd : g.defaults = ⟨false, false, 2⟩ := h.1
  cases opts with
  | nil => simp [hd]
  | cons a l => simp [hd]

/-- The specified width with the given options. -/
def specWidth (opts : List WOption) (r : Rune) : Int :=
  displayWidth (settings opts).eastAsian (settings opts).skipStrictEmojiNeutral
    (settings opts).ambiguousWidth r

theorem plainWidth_invalid (r : Rune) (h : ¬ IsScalar r ∨ r = 0xFFFD) (b c : Bool) (n : Int) :
    displayWidth b c n r = 0 := by simp [displayWidth, h]

theorem width_good {g : WGlobals} (h : GoodGlobals g) (r : Rune) (opts : List WOption) :
    ∃ g', width g r opts = .ok (specWidth opts r, g') ∧ GoodGlobals g' := by
  unfold width
  by_cases h1 : (!validRune r || r == runeError) = true
  · rw [if_pos h1]
    refine ⟨g, ?_, h⟩
    simp only [Bool.or_eq_true, Bool.not_eq_true', beq_iff_eq] at h1
    have : ¬ IsScalar r ∨ r = 0xFFFD := by
      rcases h1 with h1 | h1
      · left; rw [← validRune_iff, h1]; simp
      · right; exact h1
    unfold specWidth
    rw [plainWidth_invalid r this]; rfl
  rw [if_neg h1]
  simp only [Bool.or_eq_true, Bool.not_eq_true', beq_iff_eq, not_or, Bool.not_eq_false] at h1
  have hsc : IsScalar r := (validRune_iff r).mp h1.1
  by_cases h2 : r = 0x2E3B
  · subst h2
    refine ⟨g, ?_, h⟩
    have e0 : IsScalar 0x2E3B := by decide
    have e1 : ¬ InRanges nonprint 0x2E3B := by decide +kernel
    have e2 : ¬ InRanges combining 0x2E3B := by decide +kernel
    simp [specWidth, displayWidth, e0, e1, e2]
  have h2' : (r == 0x2E3B) = false := by simpa using h2
  simp only [h2', Bool.false_eq_true, if_false, optionsWithDefaults_good h]
  cases he : (settings opts).eastAsian
  · obtain ⟨g', hg, hg'⟩ := ensureTable_good h
    simp only [Bool.false_eq_true, if_false, hg, ok_bind, lookup_in r hsc.1 hsc.2.1, pure_eq_ok]
    refine ⟨g', ?_, hg'⟩
    rw [plainWidth_mod r h2]
    unfold specWidth
    rw [he, displayWidth_plain]
  · simp only [if_true, runeWidth_spec, ok_bind, pure_eq_ok]
    exact ⟨g, rfl, h⟩

theorem widthsLoopEA_spec (o : WOptions) : ∀ (rs : List Rune) (w : Int),
    widthsLoopEA o rs w =
      .ok (w + (rs.map (displayWidth o.eastAsian o.skipStrictEmojiNeutral o.ambiguousWidth)).sum) := by
  intro rs
  induction rs with
  | nil => intro w; simp [widthsLoopEA]
  | cons r rs ih =>
    intro w
    simp only [widthsLoopEA, runeWidth_spec, ok_bind, ih, List.map_cons, List.sum_cons]
    congr 1
    omega

theorem widthsLoop_spec : ∀ (rs : List Rune) (w : Int), (∀ r ∈ rs, 0 ≤ r ∧ r ≤ 0x10FFFF) →
    widthsLoop theTable rs w = .ok (w + (rs.map (fun r => plainWidth r % 4)).sum) := by
  intro rs
  induction rs with
  | nil => intro w _; simp [widthsLoop]
  | cons r rs ih =>
    intro w h
    have hr := h r (by simp)
    simp only [widthsLoop, lookup_in r hr.1 hr.2, ok_bind, ih _ (fun x hx => h x (by simp [hx])),
      List.map_cons, List.sum_cons]
    congr 1
    omega

theorem widthsLoop_panic : ∀ (rs : List Rune) (w : Int), (∃ r ∈ rs, r < 0 ∨ 0x10FFFF < r) →
    widthsLoop theTable rs w = .error .index := by
  intro rs
  induction rs with
  | nil => intro w h; obtain ⟨r, hr, _⟩ := h; cases hr
  | cons r rs ih =>
    intro w h
    simp only [widthsLoop]
    by_cases hr : r < 0 ∨ 0x10FFFF < r
    · rw [lookup_out r hr]; rfl
    · rw [lookup_in r (by omega) (by omega)]
      simp only [ok_bind]
      apply ih
      obtain ⟨x, hx, hx'⟩ := h
      simp only [List.mem_cons] at hx
      rcases hx with rfl | hx
      · exact absurd hx' hr
      · exact ⟨x, hx, hx'⟩

/-- Widths in a good state: East-Asian mode. -/
theorem widths_good_ea {g : WGlobals} (h : GoodGlobals g) (rs : List Rune) (opts : List WOption)
    (he : (settings opts).eastAsian = true) :
    widths g rs opts = .ok ((rs.map (specWidth opts)).sum, g) := by
  unfold widths
  simp only [optionsWithDefaults_good h, he, if_true, widthsLoopEA_spec, ok_bind, pure_eq_ok, Int.zero_add]
  unfold specWidth
  rw [he]

/-- Widths in a good state: table mode. -/
theorem widths_good_table {g : WGlobals} (h : GoodGlobals g) (rs : List Rune) (opts : List WOption)
    (he : (settings opts).eastAsian = false) (hr : ∀ r ∈ rs, 0 ≤ r ∧ r ≤ 0x10FFFF) :
    ∃ g', widths g rs opts = .ok ((rs.map (fun r => plainWidth r % 4)).sum, g') ∧ GoodGlobals g' := by
  unfold widths
  obtain ⟨g', hg, hg'⟩ := ensureTable_good h
  simp only [optionsWithDefaults_good h, he, Bool.false_eq_true, if_false, hg, ok_bind,
    widthsLoop_spec rs 0 hr, pure_eq_ok, Int.zero_add]
  exact ⟨g', rfl, hg'⟩

theorem widths_good_panic {g : WGlobals} (h : GoodGlobals g) (rs : List Rune) (opts : List WOption)
    (he : (settings opts).eastAsian = false) (hr : ∃ r ∈ rs, r < 0 ∨ 0x10FFFF < r) :
    widths g rs opts = .error .index := by
  unfold widths
  obtain ⟨g', hg, hg'⟩ := ensureTable_good h
  simp only [optionsWithDefaults_good h, he, Bool.false_eq_true, if_false, hg, ok_bind,
    widthsLoop_panic rs 0 hr]
  rfl

end Verif.Proofs
