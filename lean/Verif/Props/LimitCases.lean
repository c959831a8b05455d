import Verif.Props.Limit
import Verif.Props.LinebreakCases

/-! # C51, C78–C80: cases -/

namespace Verif.Props
open Verif.Go Verif.Model Verif.Model.LB Verif.Spec Verif.Spec.Ansi Verif.Spec.LB Verif.Proofs Verif.Proofs.LB

attribute [local irreducible] F64.pack F64.maxDouble F64.roundDouble F64.round53 defaultText

/-- Two words, 14 columns on one line. -/
def twoWords : List (List Rune) := ["aabbdcc", "x,yyy,"].map runesOf

theorem two_width : defaultText (List.intercalate [0x20] twoWords) = 14 := by
  rw [defaultText_sum _ (by decide +kernel)]; decide +kernel

theorem two_ordinary {W : Int} (h : |W| ≤ 1000) : Ordinary twoWords W :=
  ⟨by decide +kernel, fun t h => by
      have : ∀ t ∈ twoWords, (t.length : Int) < 2 ^ 63 ∧ (0x1B : Rune) ∉ t := by decide +kernel
      exact escapeFree_of (this t h).1 (this t h).2, by rw [two_width]; omega⟩

/-- The number 13.5. -/
def half27 : F64 :=
  .fin false (27 / 2) ⟨27, -1, by norm_num, by norm_num, by norm_num, by norm_num⟩ (fun _ => by norm_num)

theorem value_half27 : IsValue half27 (27 / 2) := ⟨_, _, _, rfl⟩

/-- In 13.5 columns, a line of 14 columns is returned. -/
example : ∃ l', leftAlignUniform backward Env.ascii (new Env.ascii (dictOf sampleLines) [] : LineBreaker F64) twoWords half27 =
      .ok (some [List.intercalate [0x20] twoWords], l') ∧
    ∃ w, widthsOf .init (List.intercalate [0x20] twoWords) [] = .ok w ∧ (27 / 2 : Rat) < w := by
  have hw : widthsOf .init (List.intercalate [0x20] twoWords) [] = .ok 14 :=
    (widthsOf_table .start _ [] rfl (by decide +kernel)).trans (congrArg Except.ok (by decide +kernel))
  exact C51_fraction_fails .new backward_walks digits_ascii (two_ordinary (W := 14) (by decide)) (by decide +kernel)
    (by decide +kernel) (by decide) (by decide) hw value_half27 (by norm_num) (by norm_num)

/-- The same lines for 13.5 as for 14 columns, and none of more than 14 columns. -/
example (l : LineBreaker F64) (hl : l.scaleFactor = Arith.ofInt 1) :
    leftAlignUniform forward Env.ascii l twoWords half27 = leftAlignUniform forward Env.ascii l twoWords (Arith.ofInt 14) :=
  C78_nearest twoWords hl value_half27 (W := 14) (by decide) (by decide) (by norm_num) (by norm_num)

example {l l' : LineBreaker F64} {lines : List (List Rune)} (hu : Used Env.ascii (dictOf sampleLines) [] l)
    (hr : leftAlignUniform forward Env.ascii l twoWords half27 = .ok (some lines, l')) :
    ∀ line ∈ lines, ∃ w, widthsOf .init line [] = .ok w ∧ (w : Rat) ≤ 27 / 2 + 1 / 2 :=
  C78_half_column hu forward_walks digits_ascii (two_ordinary (W := 14) (by decide)) value_half27 (by decide) (by norm_num)
    (by norm_num) (by decide +kernel) hr

/-- These words are set in 14 columns, and refused without limit and in MaxFloat64 columns. -/
example : ∃ l', leftAlignUniform backward Env.ascii (new Env.ascii (dictOf sampleLines) [] : LineBreaker F64) twoWords (Arith.ofInt 14) =
    .ok (some [List.intercalate [0x20] twoWords], l') :=
  C55_default .new backward_walks digits_ascii (two_ordinary (by decide)) (by decide) (by decide) (by decide +kernel)
    (by decide +kernel) (le_of_eq two_width)

example : ∃ l', leftAlignUniform backward Env.ascii (new Env.ascii (dictOf sampleLines) [] : LineBreaker F64) twoWords (.inf false) =
    .ok (none, l') :=
  C79_default_fails .new backward_walks digits_ascii (two_ordinary (by decide)) (by decide +kernel)
    (by rw [two_width]; decide) (Or.inl rfl)

example : ∃ l', leftAlignUniform backward Env.ascii (new Env.ascii (dictOf sampleLines) [] : LineBreaker F64) twoWords
      (.fin false F64.maxDouble F64.isDouble_max (fun _ => by
        rw [decide_eq_false (not_lt.mpr F64.maxDouble_pos.le)])) = .ok (none, l') := by
  refine C79_default_fails .new backward_walks digits_ascii (two_ordinary (by decide)) (by decide +kernel)
    (by rw [two_width]; decide) (Or.inr ⟨_, ⟨_, _, _, rfl⟩, ?_⟩)
  have := F64.small_max (q := 2000000) (by norm_num)
  rwa [abs_of_nonneg (by norm_num)] at this

/-- The number 14.25. -/
example : ∃ l', leftAlignUniform backward Env.ascii (new Env.ascii (dictOf sampleLines) [] : LineBreaker F64) twoWords
      (.fin false (57 / 4) ⟨57, -2, by norm_num, by norm_num, by norm_num, by norm_num⟩ (fun _ => by norm_num)) =
    .ok (some [List.intercalate [0x20] twoWords], l') :=
  C79_default_partial .new backward_walks digits_ascii (two_ordinary (W := 14) (by decide)) (by decide +kernel)
    (by decide +kernel) ⟨_, _, _, rfl⟩ (by decide) (by decide) (by norm_num) (by norm_num) (by rw [two_width]; norm_num)

/-- Nothing is set in less than half a column; but everything is in a width that is not a number. -/
example : ∃ l', leftAlignUniform backward Env.ascii (new Env.ascii (dictOf sampleLines) [] : LineBreaker F64) twoWords (.inf true) =
    .ok (none, l') :=
  C80_negative (paragraph_default .new backward_walks digits_ascii (two_ordinary (W := 0) (by decide))) (by decide +kernel)
    (by rw [two_width]; decide) rfl (Or.inl rfl)

example : ∃ l', leftAlignUniform backward Env.ascii (new Env.ascii (dictOf sampleLines) [] : LineBreaker F64) twoWords (F64.zero false) =
    .ok (none, l') := by
  have e : paraSyms (splitterOf Env.ascii (dictOf sampleLines) (defaultOptions ([] : List (Opt F64)))) twoWords =
      .part (runesOf "aa") :: [.soft, .part (runesOf "bb"), .soft, .part (runesOf "dcc"), .gap, .part (runesOf "x"),
        .part (runesOf ","), .mark, .part (runesOf "yyy"), .part (runesOf ","), .mark] := by decide +kernel
  exact C80_below_half (paragraph_default .new backward_walks digits_ascii (two_ordinary (W := 0) (by decide)))
    (by rw [two_width]; decide) rfl (Or.inr ⟨0, ⟨_, _, _, rfl⟩, by norm_num⟩) e
    (by rw [defaultText_sum _ (by decide +kernel)]; decide +kernel)

example : ∃ l', leftAlignUniform backward Env.ascii (new Env.ascii (dictOf sampleLines) [] : LineBreaker F64) twoWords .nan =
    .ok (some [List.intercalate [0x20] twoWords], l') :=
  C80_default_fails .new backward_walks digits_ascii (two_ordinary (by decide)) (by decide +kernel) (by decide +kernel)

end Verif.Props
