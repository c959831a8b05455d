import Verif.Model.Width64
import Verif.Props.Widths

/-! # C113: sums of widths and 64-bit numbers -/

namespace Verif.Props
open Verif.Go Verif.Model Verif.Spec Verif.Proofs

/-- The number `y` that 64 bits hold for `x`. -/
def Held (x y : Int) : Prop := -2 ^ 63 ≤ y ∧ y < 2 ^ 63 ∧ (2 ^ 64 : Int) ∣ x - y

theorem held_add {x y : Int} (h : Held x y) (w : Int) : Held (x + w) (add64 y w) := by
  obtain ⟨h1, h2, k, h3⟩ := h
  unfold add64
  refine ⟨by omega, by omega, ?_⟩
  have e := Int.mul_ediv_add_emod (y + w + 2 ^ 63) (2 ^ 64)
  refine ⟨k + (y + w + 2 ^ 63) / 2 ^ 64, ?_⟩
  omega

theorem held_zero : Held 0 0 := ⟨by decide, by decide, 0, by decide⟩

/-- Two loops that return or panic alike, the second with the number held for the sum of the first. -/
def SameHeld (a b : Res Int) : Prop :=
  match a, b with
  | .ok x, .ok y => Held x y
  | .error e, .error e' => e = e'
  | _, _ => False

theorem loop_held {t : List Nat} (rs : List Rune) {x y : Int} (h : Held x y) :
    SameHeld (widthsLoop t rs x) (widthsLoop64 t rs y) := by
  induction rs generalizing x y with
  | nil => exact h
  | cons r rs ih =>
    unfold widthsLoop widthsLoop64
    cases lookupRune t r with
    | error e => exact rfl
    | ok w => exact ih (held_add h w)

theorem loopEA_held {o : WOptions} (rs : List Rune) {x y : Int} (h : Held x y) :
    SameHeld (widthsLoopEA o rs x) (widthsLoopEA64 o rs y) := by
  induction rs generalizing x y with
  | nil => exact h
  | cons r rs ih =>
    unfold widthsLoopEA widthsLoopEA64
    cases runeWidth r o with
    | error e => exact rfl
    | ok w => exact ih (held_add h w)

/-- **C113.** Widths panics as with unbounded numbers, or returns the number that 64 bits hold for the sum. -/
theorem C113_held (g : WGlobals) (rs : List Rune) (opts : List WOption) :
    (∀ e, widths g rs opts = .error e → widths64 g rs opts = .error e) ∧
    ∀ w g', widths g rs opts = .ok (w, g') → ∃ w', widths64 g rs opts = .ok (w', g') ∧ Held w w' := by
  unfold widths widths64
  generalize optionsWithDefaults g opts = p
  obtain ⟨o, g⟩ := p
  dsimp only
  have fin : ∀ (a b : Res Int) (g : WGlobals), SameHeld a b →
      (∀ e, (a >>= fun w => (pure (w, g) : Res (Int × WGlobals))) = .error e →
        (b >>= fun w => (pure (w, g) : Res (Int × WGlobals))) = .error e) ∧
      ∀ w g', (a >>= fun w => (pure (w, g) : Res (Int × WGlobals))) = .ok (w, g') →
        ∃ w', (b >>= fun w => (pure (w, g) : Res (Int × WGlobals))) = .ok (w', g') ∧ Held w w' := by
    intro a b g h
    cases a with
    | error e =>
      cases b with
      | error e' => cases h; exact ⟨fun _ h => h, fun _ _ h => by cases h⟩
      | ok y => cases h
    | ok x =>
      cases b with
      | error e' => cases h
      | ok y =>
        refine ⟨fun _ h => (by cases h), ?_⟩
        intro w g' e
        cases e
        exact ⟨y, rfl, h⟩
  cases o.eastAsian with
  | true => exact fin _ _ g (loopEA_held rs held_zero)
  | false =>
    cases ensureTable g with
    | error e => exact ⟨fun _ h => h, fun _ _ h => by cases h⟩
    | ok q => exact fin _ _ q.2 (loop_held rs held_zero)

/-- **C113.** The sum is exact if and only if 64 bits hold it. -/
theorem C113_exact_iff (g : WGlobals) (rs : List Rune) (opts : List WOption) {w : Int} {g' : WGlobals}
    (h : widths g rs opts = .ok (w, g')) :
    widths64 g rs opts = widths g rs opts ↔ -2 ^ 63 ≤ w ∧ w < 2 ^ 63 := by
  obtain ⟨w', e, h1, h2, k, h3⟩ := (C113_held g rs opts).2 w g' h
  rw [e, h]
  constructor
  · intro h
    cases h
    exact ⟨h1, h2⟩
  · intro ⟨g1, g2⟩
    have : w' = w := by omega
    rw [this]

theorem widthsOf_ok {g : WGlobals} {rs : List Rune} {opts : List WOption} {w : Int} (h : widthsOf g rs opts = .ok w) :
    ∃ g', widths g rs opts = .ok (w, g') := by
  unfold widthsOf at h
  cases e : widths g rs opts with
  | error p => rw [e] at h; cases h
  | ok p => rw [e] at h; cases h; exact ⟨p.2, rfl⟩

/-- **C113.** Without East-Asian mode, or with a width of at most 2 for ambiguous runes, the sum is exact for every slice of
less than 2^61 runes, more than any memory holds; in general, for less than 2^63 columns. -/
theorem C113_exact (g : WGlobals) (h : AfterCalls g) (rs : List Rune) (opts : List WOption)
    (hr : ∀ r ∈ rs, 0 ≤ r ∧ r ≤ 0x10FFFF)
    (hb : (rs.length < 2 ^ 61 ∧ ((settings opts).eastAsian = false ∨
        0 ≤ (settings opts).ambiguousWidth ∧ (settings opts).ambiguousWidth ≤ 4)) ∨
      (0 ≤ (settings opts).ambiguousWidth ∧ (rs.length : Int) * max 4 (settings opts).ambiguousWidth < 2 ^ 63)) :
    widths64 g rs opts = widths g rs opts := by
  obtain ⟨b1, b2⟩ := C24_bounds g h rs opts hr
  have fin : ∀ w, widthsOf g rs opts = .ok w → 0 ≤ w → w < 2 ^ 63 → widths64 g rs opts = widths g rs opts := by
    intro w e h0 h1
    obtain ⟨g', e'⟩ := widthsOf_ok e
    exact (C113_exact_iff g rs opts e').mpr ⟨by omega, h1⟩
  rcases hb with ⟨hl, he | ⟨h0, h2⟩⟩ | ⟨h0, h2⟩
  · obtain ⟨w, e, e1, e2⟩ := b1 he
    exact fin w e e1 (by omega)
  · obtain ⟨w, e, e1, e2⟩ := b2 4 (by omega) h0 h2
    exact fin w e e1 (by omega)
  · obtain ⟨w, e, e1, e2⟩ := b2 (max 4 (settings opts).ambiguousWidth) (by omega) h0 (by omega)
    exact fin w e e1 (by omega)

/-- Two ambiguous runes of width 2^62 have a negative width. -/
theorem C113_overflow :
    widths64 .init [0xF8, 0xF8] [.eastAsian true, .ambiguousWidth (2 ^ 62)] = .ok (-2 ^ 63, .init) ∧
    widths .init [0xF8, 0xF8] [.eastAsian true, .ambiguousWidth (2 ^ 62)] = .ok (2 ^ 63, .init) := by
  decide +kernel

/-- A case of `C113_exact`, with runes of widths 1, 2 and the width of an option. -/
example : widths64 .init [0x41, 0x4E2D, 0xF8] [.eastAsian true, .ambiguousWidth 3] =
    widths .init [0x41, 0x4E2D, 0xF8] [.eastAsian true, .ambiguousWidth 3] ∧
    widths64 .init [0x41, 0x4E2D, 0xF8] [.eastAsian true, .ambiguousWidth 3] = .ok (6, .init) :=
  ⟨C113_exact _ .start _ _ (by decide) (Or.inl ⟨by decide, Or.inr (by decide)⟩), by decide +kernel⟩

end Verif.Props
