import Verif.Proofs.Lookup

/-! # Properties C21–C27: display widths

All statements are about the state of the program after any history of earlier calls. -/

namespace Verif.Props
open Verif.Go Verif.Model Verif.Spec Verif.Proofs

/-- States of the package variables after any sequence of calls of Width and Widths, with any options,
that return normally. -/
inductive AfterCalls : WGlobals → Prop where
  | start : AfterCalls WGlobals.init
  | width {g g' : WGlobals} (r : Rune) (opts : List WOption) (w : Int) :
      AfterCalls g → width g r opts = .ok (w, g') → AfterCalls g'
  | widths {g g' : WGlobals} (rs : List Rune) (opts : List WOption) (w : Int) :
      AfterCalls g → widths g rs opts = .ok (w, g') → AfterCalls g'

theorem AfterCalls.good {g : WGlobals} (h : AfterCalls g) : GoodGlobals g := by
  induction h with
  | start => exact goodGlobals_init
  | width r opts w _ hw ih =>
    obtain ⟨g'', h1, h2⟩ := width_good ih r opts
    rw [h1] at hw; cases hw; exact h2
  | widths rs opts w _ hw ih =>
    cases he : (settings opts).eastAsian
    · by_cases hr : ∃ r ∈ rs, r < 0 ∨ 0x10FFFF < r
      · rw [widths_good_panic ih rs opts he hr] at hw; cases hw
      · obtain ⟨g'', h1, h2⟩ := widths_good_table ih rs opts he (fun r hm => by
          have : ¬ (r < 0 ∨ 0x10FFFF < r) := fun h => hr ⟨r, hm, h⟩
          omega)
        rw [h1] at hw; cases hw; exact h2
    · rw [widths_good_ea ih rs opts he] at hw; cases hw; exact ih

/-- The value returned by Width (or its panic). -/
def widthOf (g : WGlobals) (r : Rune) (opts : List WOption) : Res Int := (width g r opts).map Prod.fst

/-- The value returned by Widths (or its panic). -/
def widthsOf (g : WGlobals) (rs : List Rune) (opts : List WOption) : Res Int :=
  (widths g rs opts).map Prod.fst

theorem widthOf_spec {g : WGlobals} (h : AfterCalls g) (r : Rune) (opts : List WOption) :
    widthOf g r opts = .ok (specWidth opts r) := by
  obtain ⟨g', h1, _⟩ := width_good h.good r opts
  simp [widthOf, h1, Except.map]

theorem widthsOf_ea {g : WGlobals} (h : AfterCalls g) (rs : List Rune) (opts : List WOption)
    (he : (settings opts).eastAsian = true) : widthsOf g rs opts = .ok (rs.map (specWidth opts)).sum := by
  simp [widthsOf, widths_good_ea h.good rs opts he, Except.map]

theorem widthsOf_table {g : WGlobals} (h : AfterCalls g) (rs : List Rune) (opts : List WOption)
    (he : (settings opts).eastAsian = false) (hr : ∀ r ∈ rs, 0 ≤ r ∧ r ≤ 0x10FFFF) :
    widthsOf g rs opts = .ok (rs.map (fun r => plainWidth r % 4)).sum := by
  obtain ⟨g', h1, _⟩ := widths_good_table h.good rs opts he hr
  simp [widthsOf, h1, Except.map]

theorem widthsOf_panic {g : WGlobals} (h : AfterCalls g) (rs : List Rune) (opts : List WOption)
    (he : (settings opts).eastAsian = false) (hr : ∃ r ∈ rs, r < 0 ∨ 0x10FFFF < r) :
    widthsOf g rs opts = .error .index := by
  unfold widthsOf
  rw [widths_good_panic h.good rs opts he hr]
  rfl

/-! ## C21 -/

/-- **C21.** The width read in the packed table is the one computed directly from the range tables by
`runeWidth`, for all integers. -/
theorem C21_lookup_agrees (g : WGlobals) (h : AfterCalls g) (r : Rune) :
    widthOf g r [] = runeWidth r ⟨false, false, 2⟩ := by
  rw [widthOf_spec h, runeWidth_spec]; rfl

/-- **C21.** It is the specified width. -/
theorem C21_lookup_spec (g : WGlobals) (h : AfterCalls g) (r : Rune) :
    widthOf g r [] = .ok (displayWidth false false 2 r) := by
  rw [widthOf_spec h]; rfl

/-- Width computes the specified width with any options: `settings` is what the options amount to. -/
theorem C21_width_spec (g : WGlobals) (h : AfterCalls g) (r : Rune) (opts : List WOption) :
    widthOf g r opts = .ok (displayWidth (settings opts).eastAsian
      (settings opts).skipStrictEmojiNeutral (settings opts).ambiguousWidth r) :=
  widthOf_spec h r opts

example : widthOf .init 0x4E2D [] = .ok 2 := by
  rw [C21_lookup_spec _ .start]; decide +kernel
example : widthOf .init 0xE9 [.eastAsian true] = .ok 2 := by
  rw [C21_width_spec _ .start]; decide +kernel
example : widthOf .init 0x301 [] = .ok 0 := by
  rw [C21_lookup_spec _ .start]; decide +kernel

/-! ## C22 -/

/-- **C22.** Without options widths are between 0 and 4, and 4 only for the three-em dash. -/
theorem C22_bounds (g : WGlobals) (h : AfterCalls g) (r : Rune) :
    ∃ w, widthOf g r [] = .ok w ∧ 0 ≤ w ∧ w ≤ 4 ∧ (w = 4 → r = 0x2E3B) :=
  ⟨_, widthOf_spec h r [], plainWidth_bounds r⟩

/-- **C22.** With any options, the width is 0 for invalid runes, for U+FFFD and for control characters. -/
theorem C22_zero (g : WGlobals) (h : AfterCalls g) (r : Rune) (opts : List WOption)
    (hr : ¬ IsScalar r ∨ r = 0xFFFD ∨ r < 0x20 ∨ (0x7F ≤ r ∧ r ≤ 0x9F)) :
    widthOf g r opts = .ok 0 := by
  rw [widthOf_spec h]
  congr 1
  unfold specWidth
  by_cases h1 : ¬ IsScalar r ∨ r = 0xFFFD
  · exact plainWidth_invalid r h1 _ _ _
  · have hsc : IsScalar r := by
      by_cases hs : IsScalar r
      · exact hs
      · exact absurd (Or.inl hs) h1
    have : InRanges nonprint r := by
      apply nonprint_control hsc.1
      rcases hr with hr | hr | hr | hr
      · exact absurd hsc hr
      · exact absurd (Or.inr hr) h1
      · exact Or.inl hr
      · exact Or.inr (Or.inl hr)
    simp [displayWidth, h1, this]

/-- **C22.** With the East-Asian mode and a non-negative ambiguous width, widths are not negative. -/
theorem C22_nonneg (g : WGlobals) (h : AfterCalls g) (r : Rune) (opts : List WOption)
    (hn : 0 ≤ (settings opts).ambiguousWidth) : ∃ w, widthOf g r opts = .ok w ∧ 0 ≤ w := by
  refine ⟨_, widthOf_spec h r opts, ?_⟩
  unfold specWidth displayWidth
  repeat' split
  all_goals first | exact hn | decide

example : widthOf .init 0xD801 [.eastAsian true] = .ok 0 := C22_zero _ .start _ _ (Or.inl (by decide))

/-! ## C23

The full statement is false: see `C23_three_em_dash_fails` and `C23_invalid_rune_fails`. -/

/-- Sum of the widths of the runes, each given by a call of Width. -/
def sumOfWidths (g : WGlobals) (opts : List WOption) : List Rune → Res Int
  | [] => .ok 0
  | r :: rs => do
    let w ← widthOf g r opts
    let ws ← sumOfWidths g opts rs
    return w + ws

theorem sumOfWidths_spec {g : WGlobals} (h : AfterCalls g) (opts : List WOption) (rs : List Rune) :
    sumOfWidths g opts rs = .ok (rs.map (specWidth opts)).sum := by
  induction rs with
  | nil => rfl
  | cons r rs ih => simp [sumOfWidths, widthOf_spec h, ih]

/-- **C23** in East-Asian mode, for all slices; and in the default mode for slices of code points
without the three-em dash (missing: that rune, and invalid runes). -/
theorem C23_sum_partial (g : WGlobals) (h : AfterCalls g) (rs : List Rune) (opts : List WOption)
    (hr : (settings opts).eastAsian = true ∨ ∀ r ∈ rs, 0 ≤ r ∧ r ≤ 0x10FFFF ∧ r ≠ 0x2E3B) :
    widthsOf g rs opts = sumOfWidths g opts rs := by
  rw [sumOfWidths_spec h]
  cases he : (settings opts).eastAsian
  · rw [he] at hr
    rcases hr with hr | hr
    · cases hr
    rw [widthsOf_table h rs opts he (fun r hm => ⟨(hr r hm).1, (hr r hm).2.1⟩)]
    congr 2
    apply List.map_congr_left
    intro r hm
    rw [plainWidth_mod r (hr r hm).2.2]
    unfold specWidth
    rw [he, displayWidth_plain]
  · exact widthsOf_ea h rs opts he

/-- **C23 fails** for the three-em dash: 4 cells alone, 0 in a slice. -/
theorem C23_three_em_dash_fails :
    widthOf .init 0x2E3B [] = .ok 4 ∧ widthsOf .init [0x2E3B] [] = .ok 0 := by
  constructor
  · exact (C21_lookup_spec _ .start _).trans (congrArg Except.ok plainWidth_special)
  · rw [widthsOf_table .start _ _ rfl (by simp)]
    rw [List.map_cons, List.map_nil, plainWidth_special]; rfl

/-- **C23 fails** for invalid runes: Width gives 0, Widths panics. -/
theorem C23_invalid_rune_fails :
    (∀ r : Rune, r < 0 ∨ 0x10FFFF < r → widthOf .init r [] = .ok 0) ∧
    (∀ (r : Rune) (rs : List Rune), r ∈ rs → (r < 0 ∨ 0x10FFFF < r) →
      widthsOf .init rs [] = .error .index) := by
  constructor
  · intro r hr
    exact C22_zero _ .start r [] (Or.inl (by unfold IsScalar; omega))
  · intro r rs hm hr
    exact widthsOf_panic .start rs [] rfl ⟨r, hm, hr⟩

example : widthsOf .init [0x41, 0x4E2D, 0xD801] [] = .ok 3 := by
  rw [widthsOf_table .start _ _ rfl (by decide)]; decide +kernel

/-! ## C24 -/

theorem widthsOf_sum {g : WGlobals} (h : AfterCalls g) (opts : List WOption) :
    ∃ f : Rune → Int, ∀ rs : List Rune, (∀ r ∈ rs, 0 ≤ r ∧ r ≤ 0x10FFFF) →
      widthsOf g rs opts = .ok (rs.map f).sum := by
  cases he : (settings opts).eastAsian
  · exact ⟨_, fun rs hr => widthsOf_table h rs opts he hr⟩
  · exact ⟨_, fun rs _ => widthsOf_ea h rs opts he⟩

/-- **C24.** The width of a concatenation is the sum of the widths. -/
theorem C24_append (g : WGlobals) (h : AfterCalls g) (a b : List Rune) (opts : List WOption)
    (hr : ∀ r ∈ a ++ b, 0 ≤ r ∧ r ≤ 0x10FFFF) :
    ∃ wa wb, widthsOf g a opts = .ok wa ∧ widthsOf g b opts = .ok wb ∧
      widthsOf g (a ++ b) opts = .ok (wa + wb) := by
  obtain ⟨f, hf⟩ := widthsOf_sum h opts
  refine ⟨_, _, hf a (fun r hm => hr r (by simp [hm])), hf b (fun r hm => hr r (by simp [hm])), ?_⟩
  rw [hf _ hr, List.map_append, List.sum_append]

/-- **C24.** The width does not depend on the order of the runes. -/
theorem C24_perm (g : WGlobals) (h : AfterCalls g) (a b : List Rune) (opts : List WOption)
    (hp : a.Perm b) (hr : ∀ r ∈ a, 0 ≤ r ∧ r ≤ 0x10FFFF) :
    ∃ w, widthsOf g a opts = .ok w ∧ widthsOf g b opts = .ok w := by
  obtain ⟨f, hf⟩ := widthsOf_sum h opts
  refine ⟨_, hf a hr, ?_⟩
  rw [hf b (fun r hm => hr r (hp.symm.subset hm))]
  congr 1
  have key : ∀ a b : List Int, a.Perm b → a.sum = b.sum := by
    intro a b h
    induction h with
    | nil => rfl
    | cons x _ ih => simp [ih]
    | swap x y l => simp only [List.sum_cons]; omega
    | trans _ _ h1 h2 => exact h1.trans h2
  exact (key _ _ (hp.map f)).symm

/-- **C24.** Width of the empty slice. -/
theorem C24_empty (g : WGlobals) (h : AfterCalls g) (opts : List WOption) :
    widthsOf g [] opts = .ok 0 := by
  obtain ⟨f, hf⟩ := widthsOf_sum h opts
  rw [hf [] (by simp)]; rfl

example : widthsOf .init ([0x41] ++ [0x4E2D, 0x2E3B]) [] = .ok 3 := by
  rw [widthsOf_table .start _ _ rfl (by decide)]; decide +kernel

/-- A sum is between 0 and `k` times the number of its terms. -/
theorem sum_bounds (f : Rune → Int) (k : Int) (rs : List Rune) (h : ∀ r ∈ rs, 0 ≤ f r ∧ f r ≤ k) :
    0 ≤ (rs.map f).sum ∧ (rs.map f).sum ≤ rs.length * k := by
  induction rs with
  | nil => simp
  | cons r rs ih =>
    obtain ⟨h1, h2⟩ := ih (fun r hr => h r (List.mem_cons_of_mem _ hr))
    obtain ⟨h3, h4⟩ := h r List.mem_cons_self
    have e : ((r :: rs).length : Int) * k = rs.length * k + k := by
      rw [List.length_cons, Int.natCast_add, Int.add_mul]; simp
    rw [List.map_cons, List.sum_cons, e]
    omega

/-- **C24.** The width of a slice is not negative, and at most three columns by rune with the lookup table; in
East-Asian mode at most four, or the width of ambiguous runes. So the sum of the code cannot overflow: a slice in
memory has less than 2^61 runes of four bytes (for widths of ambiguous runes up to 4). -/
theorem C24_bounds (g : WGlobals) (h : AfterCalls g) (rs : List Rune) (opts : List WOption)
    (hr : ∀ r ∈ rs, 0 ≤ r ∧ r ≤ 0x10FFFF) :
    ((settings opts).eastAsian = false → ∃ w, widthsOf g rs opts = .ok w ∧ 0 ≤ w ∧ w ≤ rs.length * 3) ∧
    (∀ k : Int, 4 ≤ k → 0 ≤ (settings opts).ambiguousWidth → (settings opts).ambiguousWidth ≤ k →
      ∃ w, widthsOf g rs opts = .ok w ∧ 0 ≤ w ∧ w ≤ rs.length * k) := by
  have hplain : (settings opts).eastAsian = false →
      ∃ w, widthsOf g rs opts = .ok w ∧ 0 ≤ w ∧ w ≤ rs.length * 3 := by
    intro he
    refine ⟨_, widthsOf_table h rs opts he hr, sum_bounds _ 3 rs (fun r _ => ?_)⟩
    omega
  refine ⟨hplain, fun k hk h0 h1 => ?_⟩
  cases he : (settings opts).eastAsian
  · obtain ⟨w, e1, e2, e3⟩ := hplain he
    refine ⟨w, e1, e2, Int.le_trans e3 (Int.mul_le_mul_of_nonneg_left (by omega) (by omega))⟩
  · refine ⟨_, widthsOf_ea h rs opts he, sum_bounds _ k rs (fun r _ => ?_)⟩
    unfold specWidth displayWidth
    repeat' split
    all_goals omega

/-- The bound is reached by two-em dashes. -/
example : widthsOf .init [0x2E3A, 0x2E3A] [] = .ok (([0x2E3A, 0x2E3A] : List Rune).length * 3) := by
  rw [widthsOf_table .start _ _ rfl (by decide)]; decide +kernel

/-! ## C25 -/

/-- **C25.** Turning on the East-Asian mode, with any ambiguous width, changes the width of ambiguous
runes only. -/
theorem C25_only_ambiguous (g : WGlobals) (h : AfterCalls g) (r : Rune) (n : Int)
    (hne : widthOf g r [.eastAsian true, .ambiguousWidth n] ≠ widthOf g r []) :
    isAmbiguous r = .ok true := by
  rw [widthOf_spec h, widthOf_spec h] at hne
  unfold isAmbiguous
  rw [inTable_ambiguous]
  by_cases ha : InRanges ambiguous r
  · simp [ha]
  · exfalso; apply hne
    simp [specWidth, settings, WOption.apply, displayWidth, ha]

/-- **C25.** With WithSkipStrictEmojiNeutral, emojis may change too, from 1 to 2. -/
theorem C25_emoji (g : WGlobals) (h : AfterCalls g) (r : Rune) (n : Int)
    (hne : widthOf g r [.eastAsian true, .skipStrictEmojiNeutral true, .ambiguousWidth n] ≠
      widthOf g r []) :
    isAmbiguous r = .ok true ∨ (InRanges emoji r ∧ widthOf g r [] = .ok 1 ∧
      widthOf g r [.eastAsian true, .skipStrictEmojiNeutral true, .ambiguousWidth n] = .ok 2) := by
  rw [widthOf_spec h, widthOf_spec h] at *
  unfold isAmbiguous
  rw [inTable_ambiguous]
  by_cases ha : InRanges ambiguous r
  · simp [ha]
  · right
    simp only [specWidth, settings, List.foldl, WOption.apply, displayWidth, ha] at *
    by_cases he : InRanges emoji r
    · refine ⟨he, ?_⟩
      simp only [he] at hne ⊢
      repeat' split
      all_goals simp_all
    · exfalso; apply hne; simp [he]

/-- **C25.** In East-Asian mode, a printable ambiguous rune has exactly the configured width. -/
theorem C25_ambiguous_width (g : WGlobals) (h : AfterCalls g) (r : Rune) (opts : List WOption)
    (hea : (settings opts).eastAsian = true) (ha : isAmbiguous r = .ok true)
    (hr : r ≠ 0xFFFD) (hp : ¬ InRanges nonprint r) (hc : ¬ InRanges combining r) :
    widthOf g r opts = .ok (settings opts).ambiguousWidth := by
  unfold isAmbiguous at ha
  rw [inTable_ambiguous] at ha
  have ha' : InRanges ambiguous r := by simpa using ha
  have hsc : IsScalar r := by
    obtain ⟨iv, hm, h1, h2⟩ := ha'
    have : ∀ iv ∈ ambiguous, 0 ≤ iv.1 ∧ iv.2 ≤ 0x10FFFF ∧ (iv.2 < 0xD800 ∨ 0xDFFF < iv.1) := by
      decide +kernel
    have := this iv hm
    unfold IsScalar; omega
  have hd : ¬ InRanges doublewidth r := fun hd => doublewidth_ambiguous.no hd ha'
  have e1 : r ≠ 0x2E3B := by rintro rfl; exact absurd ha' (by decide +kernel)
  have e2 : r ≠ 0x2E3A := by rintro rfl; exact absurd ha' (by decide +kernel)
  rw [widthOf_spec h]
  simp [specWidth, displayWidth, hsc, hr, hp, hc, e1, e2, hd, hea, ha']

/-- **C25.** Wide runes have width 2 with any options (combining marks apart). -/
theorem C25_wide (g : WGlobals) (h : AfterCalls g) (r : Rune) (opts : List WOption)
    (hw : InRanges doublewidth r) (hc : ¬ InRanges combining r) : widthOf g r opts = .ok 2 := by
  have hsc : IsScalar r ∧ r ≠ 0xFFFD := by
    obtain ⟨iv, hm, h1, h2⟩ := hw
    have : ∀ iv ∈ doublewidth, 0 ≤ iv.1 ∧ iv.2 ≤ 0x10FFFF ∧ (iv.2 < 0xD800 ∨ 0xDFFF < iv.1) ∧
        (iv.2 < 0xFFFD ∨ 0xFFFD < iv.1) := by
      decide +kernel
    have := this iv hm
    unfold IsScalar; omega
  have hp : ¬ InRanges nonprint r := by
    have : Disjoint doublewidth nonprint := by decide +kernel
    exact this.no hw
  have e1 : r ≠ 0x2E3B := by rintro rfl; exact absurd hw (by decide +kernel)
  have e2 : r ≠ 0x2E3A := by rintro rfl; exact absurd hw (by decide +kernel)
  rw [widthOf_spec h]
  simp [specWidth, displayWidth, hsc.1, hsc.2, hp, hc, e1, e2, hw]

example : widthOf .init 0xA1 [.eastAsian true, .ambiguousWidth 7] = .ok 7 :=
  C25_ambiguous_width _ .start 0xA1 _ rfl (by decide +kernel) (by decide) (by decide +kernel) (by decide +kernel)

/-! ## C26 -/

/-- **C26.** In any non-empty sorted table of disjoint intervals, the search finds a rune iff some
interval contains it. -/
theorem C26_search_exact (r : Rune) (t : List (Rune × Rune)) (hne : t ≠ []) (hs : SortedRanges t) :
    inTable r t = .ok (decide (∃ iv ∈ t, iv.1 ≤ r ∧ r ≤ iv.2)) := inTable_spec r t hne hs

/-- **C26.** All shipped tables are of that form. -/
theorem C26_tables_sorted :
    ∀ t ∈ [nonprint, combining, narrow, doublewidth, ambiguous, emoji], t ≠ [] ∧ SortedRanges t := by
  intro t ht
  simp only [List.mem_cons, List.not_mem_nil, or_false] at ht
  rcases ht with rfl | rfl | rfl | rfl | rfl | rfl
  · exact ⟨by simp [nonprint], sorted_nonprint⟩
  · exact ⟨by simp [combining], sorted_combining⟩
  · exact ⟨by simp [narrow], sorted_narrow⟩
  · exact ⟨by simp [doublewidth], sorted_doublewidth⟩
  · exact ⟨by simp [ambiguous], sorted_ambiguous⟩
  · exact ⟨by simp [emoji], sorted_emoji⟩

/-- **C26.** IsAmbiguous is membership in the ambiguous ranges. -/
theorem C26_isAmbiguous (r : Rune) :
    isAmbiguous r = .ok true ↔ ∃ iv ∈ ambiguous, iv.1 ≤ r ∧ r ≤ iv.2 := by
  unfold isAmbiguous
  rw [inTable_ambiguous]
  rw [Except.ok.injEq, decide_eq_true_iff]
  rfl

example : isAmbiguous 0xE9 = .ok true := by decide +kernel
example : isAmbiguous 0xEB = .ok false := by decide +kernel

/-! ## C27 -/

/-- **C27.** The result of Width does not depend on the calls made before. -/
theorem C27_width_history (g : WGlobals) (h : AfterCalls g) (r : Rune) (opts : List WOption) :
    widthOf g r opts = widthOf WGlobals.init r opts := by
  rw [widthOf_spec h, widthOf_spec .start]

/-- **C27.** The result of Widths (even a panic) does not depend on the calls made before. -/
theorem C27_widths_history (g : WGlobals) (h : AfterCalls g) (rs : List Rune) (opts : List WOption) :
    widthsOf g rs opts = widthsOf WGlobals.init rs opts := by
  cases he : (settings opts).eastAsian
  · by_cases hr : ∃ r ∈ rs, r < 0 ∨ 0x10FFFF < r
    · rw [widthsOf_panic h rs opts he hr, widthsOf_panic .start rs opts he hr]
    · have hr' : ∀ r ∈ rs, 0 ≤ r ∧ r ≤ 0x10FFFF := fun r hm => by
        have : ¬ (r < 0 ∨ 0x10FFFF < r) := fun h => hr ⟨r, hm, h⟩
        omega
      rw [widthsOf_table h rs opts he hr', widthsOf_table .start rs opts he hr']
  · rw [widthsOf_ea h rs opts he, widthsOf_ea .start rs opts he]

/-- The last value given by the options for one setting. -/
def lastWOption {α : Type} (pick : WOption → Option α) (dflt : α) (opts : List WOption) : α :=
  ((opts.filterMap pick).getLast?).getD dflt

theorem lastWOption_append {α : Type} (pick : WOption → Option α) (dflt : α) (opts : List WOption)
    (o : WOption) :
    lastWOption pick dflt (opts ++ [o]) = (pick o).getD (lastWOption pick dflt opts) := by
  unfold lastWOption
  rw [List.filterMap_append]
  cases h : pick o <;> simp [h]

/-- **C27.** What a list of options amounts to: for each setting the last option wins, with the
documented defaults. -/
theorem C27_last_wins (opts : List WOption) :
    settings opts =
      ⟨lastWOption (fun | .eastAsian b => some b | _ => none) false opts,
       lastWOption (fun | .skipStrictEmojiNeutral b => some b | _ => none) false opts,
       lastWOption (fun | .ambiguousWidth n => some n | _ => none) 2 opts⟩ := by
  generalize hr : opts.reverse = r
  have : opts = r.reverse := by rw [← hr, List.reverse_reverse]
  subst this
  clear hr
  induction r with
  | nil => rfl
  | cons o r ih =>
    rw [List.reverse_cons]
    have he : settings (r.reverse ++ [o]) = WOption.apply (settings r.reverse) o := by
      simp [settings, List.foldl_append]
    rw [he, ih]
    simp only [lastWOption_append]
    cases o <;> simp [WOption.apply]

/-- **C27.** When the East-Asian mode is not on, the options have no effect. -/
theorem C27_no_effect_when_off (g : WGlobals) (h : AfterCalls g) (opts : List WOption)
    (he : (settings opts).eastAsian = false) (r : Rune) (rs : List Rune) :
    widthOf g r opts = widthOf g r [] ∧ widthsOf g rs opts = widthsOf g rs [] := by
  constructor
  · rw [widthOf_spec h, widthOf_spec h]
    unfold specWidth
    rw [he, displayWidth_plain]; rfl
  · by_cases hr : ∃ r ∈ rs, r < 0 ∨ 0x10FFFF < r
    · rw [widthsOf_panic h rs opts he hr, widthsOf_panic h rs [] rfl hr]
    · have hr' : ∀ r ∈ rs, 0 ≤ r ∧ r ≤ 0x10FFFF := fun r hm => by
        have : ¬ (r < 0 ∨ 0x10FFFF < r) := fun h => hr ⟨r, hm, h⟩
        omega
      rw [widthsOf_table h rs opts he hr', widthsOf_table h rs [] rfl hr']

example : (settings [.eastAsian true, .ambiguousWidth 3, .eastAsian false]) = ⟨false, false, 3⟩ := rfl

end Verif.Props
