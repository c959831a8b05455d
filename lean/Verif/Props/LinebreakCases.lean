import Verif.Props.LinebreakDefault
import Verif.Props.Hyphenation

/-! # C49–C63: cases

A concrete line breaker on rational numbers, that meets the hypotheses of the theorems of
`Verif.Props.Linebreak`, and paragraphs where the properties fail. -/

namespace Verif.Props
open Verif.Go Verif.Model Verif.Model.LB Verif.Spec Verif.Spec.Ansi Verif.Spec.LB Verif.Proofs Verif.Proofs.LB

/-- The laws of the rationals. -/
local instance demoLaws : Laws Rat := ratLaws (2 ^ 53) (le_refl _)

/-- Two walks of the map of candidates. -/
def forward : Runtime := ⟨fun _ _ => [.zero, .one, .two, .three], fun _ => []⟩

def backward : Runtime := ⟨fun _ _ => [.three, .two, .one, .zero], fun _ => []⟩

theorem forward_walks : Walks forward := by intro i n c; cases c <;> simp [forward]

theorem backward_walks : Walks backward := by intro i n c; cases c <;> simp [backward]

/-- Every rune has width 1. -/
def unit : Opt Rat := .measurer (fun rs => (rs.length : Rat))

def demoText (t : List Rune) : Int := t.length

/-- The line breaker made by New with some options, after the measurer of runes. -/
def demo (opts : List (Opt Rat)) : LineBreaker Rat := new Env.ascii (dictOf sampleLines) (unit :: opts)

/-- The lines returned for some words. -/
def linesOf (rt : Runtime) (l : LineBreaker Rat) (tokens : List String) (w : Rat) : Res (Option (List (List Rune))) :=
  (leftAlignUniform rt Env.ascii l (tokens.map runesOf) w).map Prod.fst

theorem linesOf_ok {rt : Runtime} {l : LineBreaker Rat} {tokens : List String} {w : Rat} {r : Option (List (List Rune))}
    (h : linesOf rt l tokens w = .ok r) : ∃ l', leftAlignUniform rt Env.ascii l (tokens.map runesOf) w = .ok (r, l') := by
  unfold linesOf at h
  cases e : leftAlignUniform rt Env.ascii l (tokens.map runesOf) w with
  | error p => rw [e] at h; cases h
  | ok p => rw [e] at h; cases h; exact ⟨_, rfl⟩

theorem digits_ascii : AsciiDigits Env.ascii := by
  intro r _ _
  simp [Env.ascii]

theorem escapeFree_of {t : List Rune} (h1 : (t.length : Int) < 2 ^ 63) (h2 : (0x1B : Rune) ∉ t) : EscapeFree t :=
  ⟨h1, fun h => h2 (h.subset (by simp [introducer]))⟩

theorem sane_demo : Sane (defaultOptions [unit]) demoText 1 := by
  refine sane_unscaled rfl (fun t => ?_) (fun t => Int.natCast_nonneg _) rfl (by decide) ?_ ?_ ?_ ?_ rfl rfl
  · show ((t.length : Nat) : Rat) = (((t.length : Nat) : Int) : Rat)
    simp
  · exact within_int 300 10000 (by decide) (by decide) (by decide)
  · decide +kernel
  · decide +kernel
  · exact ⟨by decide +kernel, by decide +kernel⟩

theorem own_demo : OwnPenalty (defaultOptions [unit]) :=
  ⟨by decide +kernel, by decide +kernel, by decide +kernel, by decide +kernel⟩

theorem sumOf_demo (tokens : List (List Rune)) : SumOf demoText tokens (fun _ => 1) := by
  intro t _
  simp [demoText]

theorem demo_call {rt : Runtime} (hw : Walks rt) {tokens : List (List Rune)} {W : Int} {l : LineBreaker Rat}
    (hu : Used Env.ascii (dictOf sampleLines) [unit] l) (h : ∀ t ∈ tokens, (t.length : Int) < 2 ^ 63 ∧ (0x1B : Rune) ∉ t)
    (hx : ((List.intercalate [0x20] tokens).length : Int) + 1 + |W| ≤ 2 ^ 53) :
    Call rt Env.ascii (dictOf sampleLines) [unit] demoText 1 l tokens (Arith.ofInt W : Rat) W := by
  refine ⟨hu, sane_demo, hw, digits_ascii, fun t ht => escapeFree_of (h t ht).1 (h t ht).2, ?_, ?_⟩
  · show Arith.round (Arith.mul (Arith.ofInt W) (Arith.ofInt 1 : Rat)) = _
    rw [Laws.mul_one, Laws.round_int]
  · have hl := lossless (env := Env.ascii) (dict := dictOf sampleLines) sane_demo
    obtain ⟨t1, t2⟩ := text_body hl (sumOf_demo tokens) (measureOf (defaultOptions [unit]) demoText)
      rfl rfl (paraSyms (splitterOf Env.ascii (dictOf sampleLines) (defaultOptions [unit])) tokens) (fun _ h => h)
    rw [← t2, ← sumOf_demo tokens _ t1, lineText_joined hl]
    exact hx

/-- Words with a hyphenation point, a mark and a mark inside. -/
def demoWords : List String := ["aabbdcc", "x,yyy,"]

theorem demo_words {rt : Runtime} (hw : Walks rt) :
    Call rt Env.ascii (dictOf sampleLines) [unit] demoText 1 (demo []) (demoWords.map runesOf) (Arith.ofInt 5 : Rat) 5 :=
  demo_call hw .new (by decide +kernel) (by decide +kernel)

theorem demo_run : ∃ l', leftAlignUniform forward Env.ascii (demo []) (demoWords.map runesOf) (Arith.ofInt 5) =
    .ok (some (["aa-", "bbdcc", "x,", "yyy,"].map runesOf), l') := linesOf_ok (by decide +kernel)

/-! The hypotheses of the theorems are met. -/

example : Reflow [0x20] (fun e => e = []) (fun r e => e = [0x2D] ∨ (e = [] ∧ (IsMark Env.ascii r ∨ isHyphenRune r = true)))
    (joined (demoWords.map runesOf)) (["aa-", "bbdcc", "x,", "yyy,"].map runesOf) := by
  obtain ⟨l', h⟩ := demo_run
  exact C57_hyphens_in_text (demo_words forward_walks) (by decide) (by decide +kernel) rfl own_demo h

example : Reflow [0x20] (fun e => e = [] ∨ e = [0x2D]) (fun _ e => e = [] ∨ e = [0x2D])
    (joined (demoWords.map runesOf)) (["aa-", "bbdcc", "x,", "yyy,"].map runesOf) := by
  obtain ⟨l', h⟩ := demo_run
  exact C50_text_kept (demo_words forward_walks) (by decide) (by decide +kernel) h

example : ∀ line ∈ (["aa-", "bbdcc", "x,", "yyy,"].map runesOf), demoText line ≤ 5 := by
  obtain ⟨l', h⟩ := demo_run
  exact C51_width_partial (demo_words forward_walks) (by decide) (by decide +kernel) (fun _ => own_demo) _ (sumOf_demo _) h

example : Settable (measureOf (defaultOptions [unit]) demoText) 5 (Tolerated (defaultOptions [unit]))
    (paraSyms (splitterOf Env.ascii (dictOf sampleLines) (defaultOptions [unit])) (demoWords.map runesOf)) := by
  obtain ⟨l', h⟩ := demo_run
  exact (C52_set_iff (demo_words forward_walks) (by decide) (by decide +kernel) (by decide +kernel)).1.mp ⟨_, _, h⟩

example : ¬ ∃ l', leftAlignUniform backward Env.ascii (demo []) (demoWords.map runesOf) (Arith.ofInt 5) = .ok (none, l') := by
  obtain ⟨l', h⟩ := demo_run
  rw [C58_success_partial (demo_words backward_walks) (demo_words forward_walks) (by decide) (by decide +kernel), h]
  rintro ⟨_, h⟩
  cases h

example : ∃ ls : List Line, Layout (hyphenAt (defaultOptions [unit])) (Acceptable (measureOf (defaultOptions [unit]) demoText) 5
      (Tolerated (defaultOptions [unit]))) false true
      (paraSyms (splitterOf Env.ascii (dictOf sampleLines) (defaultOptions [unit])) (demoWords.map runesOf)) ls ∧
    ["aa-", "bbdcc", "x,", "yyy,"].map runesOf = ls.map (Line.text [0x20]) := by
  obtain ⟨l', h⟩ := demo_run
  exact C57_hyphens_at_cuts (demo_words forward_walks) (by decide) (by decide +kernel) (fun _ => own_demo) h

example : ∃ r, leftAlignUniform backward Env.ascii (demo []) (demoWords.map runesOf) (Arith.ofInt 5) = .ok r :=
  C54_no_panic_partial (demo_words backward_walks) (by decide) (by decide +kernel)

/-- Also by a line breaker that was used before. -/
example : ∃ l l', Used Env.ascii (dictOf sampleLines) [unit] l ∧
    leftAlignUniform backward Env.ascii l (demoWords.map runesOf) (Arith.ofInt 14) = .ok (some [runesOf "aabbdcc x,yyy,"], l') := by
  obtain ⟨l, h⟩ := demo_run
  have hu : Used Env.ascii (dictOf sampleLines) [unit] l :=
    .call forward _ _ _ .new (demo_words forward_walks).escapeFree h
  obtain ⟨l', h'⟩ := C55_text_fits
    (demo_call (tokens := demoWords.map runesOf) (W := 14) backward_walks hu (by decide +kernel) (by decide +kernel))
    (by decide) (by decide +kernel) (by decide +kernel) (by decide) (by decide +kernel) _ (sumOf_demo _) (by decide +kernel)
  exact ⟨l, l', hu, h'⟩

example : ∀ line ∈ (["aa-", "bbdcc", "x,", "yyy,"].map runesOf), (0x1B : Rune) ∉ line := by
  obtain ⟨l', h⟩ := demo_run
  exact C49_paragraph (demo_words forward_walks) (by decide) (by decide +kernel) (by decide +kernel) h

example : ∀ line ∈ (["aa-", "bbdcc", "x,", "yyy,"].map runesOf), ∃ r rest, line = r :: rest ∧
    ∃ t ∈ demoWords.map runesOf, r ∈ t := by
  obtain ⟨l', h⟩ := demo_run
  exact (C62_no_empty_line (demo_words forward_walks) (by decide) (by decide +kernel) h).2

example : ∃ l', leftAlignUniform forward Env.ascii (demo []) [[]] (Arith.ofInt 5) = .ok (none, l') :=
  C60_empty_word_partial (demo_call forward_walks .new (by decide) (by decide)) (by decide)

/-- A second call gives the lines of the first one. -/
example : ∃ l l', leftAlignUniform forward Env.ascii (demo []) (demoWords.map runesOf) (Arith.ofInt 5) =
      .ok (some (["aa-", "bbdcc", "x,", "yyy,"].map runesOf), l) ∧
    leftAlignUniform forward Env.ascii l (demoWords.map runesOf) (Arith.ofInt 5) =
      .ok (some (["aa-", "bbdcc", "x,", "yyy,"].map runesOf), l') := by
  obtain ⟨l, h⟩ := demo_run
  have hu : Used Env.ascii (dictOf sampleLines) [unit] l :=
    .call forward _ _ _ .new (demo_words forward_walks).escapeFree h
  have := C61_reuse_partial forward digits_ascii hu (demoWords.map runesOf) (demo_words forward_walks).escapeFree (Arith.ofInt 5)
  have e : leftAlignUniform forward Env.ascii (new Env.ascii (dictOf sampleLines) [unit]) (demoWords.map runesOf) (Arith.ofInt 5) =
    leftAlignUniform forward Env.ascii (demo []) (demoWords.map runesOf) (Arith.ofInt 5) := rfl
  rw [e, h] at this
  cases h' : leftAlignUniform forward Env.ascii l (demoWords.map runesOf) (Arith.ofInt 5) with
  | error e => rw [h'] at this; cases this
  | ok p =>
    rw [h'] at this
    have hp : p.1 = some (["aa-", "bbdcc", "x,", "yyy,"].map runesOf) := by simpa [Except.map] using this
    exact ⟨l, p.2, h, by rw [h', ← hp]⟩

/-- A paragraph with the default options. -/
example : ∃ l', leftAlignUniform backward Env.ascii (new Env.ascii (dictOf sampleLines) [] : LineBreaker Rat)
    (["aabbdcc", "x,yyy,"].map runesOf) (Arith.ofInt 14) = .ok (some [runesOf "aabbdcc x,yyy,"], l') := by
  have ht : defaultText (List.intercalate [0x20] (["aabbdcc", "x,yyy,"].map runesOf)) = 14 := by
    rw [defaultText_sum _ (by decide +kernel)]; decide +kernel
  exact C55_default .new backward_walks digits_ascii
    ⟨by decide +kernel, fun t h => by
      have : ∀ t ∈ ["aabbdcc", "x,yyy,"].map runesOf, (t.length : Int) < 2 ^ 63 ∧ (0x1B : Rune) ∉ t := by decide +kernel
      exact escapeFree_of (this t h).1 (this t h).2, by rw [ht]; decide⟩
    (by decide) (by decide) (by decide +kernel) (by decide +kernel) (le_of_eq ht)

/-- Without word breaking. -/
theorem demo_whole : ∃ l', leftAlignUniform forward Env.ascii (demo [.wordBreak false]) (demoWords.map runesOf) (Arith.ofInt 8) =
    .ok (some (["aabbdcc", "x,yyy,"].map runesOf), l') := linesOf_ok (by decide +kernel)

example : Reflow [0x20] (fun e => e = []) (fun r e => e = [] ∧ IsMark Env.ascii r) (joined (demoWords.map runesOf))
    (["aabbdcc", "x,yyy,"].map runesOf) := by
  obtain ⟨l', h⟩ := demo_whole
  have hs : Sane (defaultOptions [unit, .wordBreak false]) demoText 1 := by
    refine sane_unscaled rfl (fun t => ?_) (fun t => Int.natCast_nonneg _) rfl (by decide) ?_ ?_ ?_ ?_ rfl rfl
    · show ((t.length : Nat) : Rat) = (((t.length : Nat) : Int) : Rat)
      simp
    · exact within_int 300 10000 (by decide) (by decide) (by decide)
    · decide +kernel
    · decide +kernel
    · exact ⟨by decide +kernel, by decide +kernel⟩
  have hq : ∀ t ∈ demoWords.map runesOf, (t.length : Int) < 2 ^ 63 ∧ (0x1B : Rune) ∉ t := by decide +kernel
  exact C63_words_whole (n := 1) (W := 8) (text := demoText)
    ⟨.new, hs, forward_walks, digits_ascii, fun t ht => escapeFree_of (hq t ht).1 (hq t ht).2, by decide +kernel, by decide +kernel⟩
    (by decide) (by decide +kernel) rfl
    (fun _ => ⟨by decide +kernel, by decide +kernel, by decide +kernel, by decide +kernel⟩) h

/-! ## Failures -/

/-- **C51** fails with a width that is not an integer: the requested width is rounded. -/
theorem C51_rounded_fails :
    linesOf forward (demo []) ["aaaaa", "bbbbb"] (21 / 2) = .ok (some [runesOf "aaaaa bbbbb"]) ∧
      ((runesOf "aaaaa bbbbb").length : Rat) > 21 / 2 := by decide +kernel

/-- **C51**, **C57** fail when the penalty of hyphens is the one of marks: a hyphen is then added after a mark, and
the line is too wide. -/
theorem C57_penalty_fails :
    linesOf forward (demo [.hyphenPenalty 400]) ["aaaa,", "bbbb"] 5 = .ok (some [runesOf "aaaa,-", runesOf "bbbb"]) ∧
    linesOf forward (demo [.hyphenPenalty 200]) ["aaaa-bbbb"] 5 = .ok (some [runesOf "aaaa--", runesOf "bbbb"]) ∧
    linesOf forward (demo [.hyphenPenalty 0]) ["aaaa", "bbbb"] 5 = .ok (some [runesOf "aaaa-", runesOf "bbbb"]) := by
  decide +kernel

/-- **C54** fails for a paragraph that starts with empty words: the call panics. -/
theorem C54_leading_empty_fails :
    linesOf forward (demo []) ["", "", "", "aaaa"] 4 = .error .slice := by decide +kernel

/-- A measurer with a wide letter. -/
def wideLetter : Opt Rat :=
  .measurer (fun rs => (rs.map (fun r => if r = 0x61 then (5980 : Rat) else if r = 0x62 then 5 else 10)).sum)

/-- **C55** does not extend to wide lines: the words `a` and `b` have width 5980 + 10 + 5 and are set on two lines of width
6000, for some walk. -/
theorem C55_wide_lines_differ :
    linesOf backward (new Env.ascii (dictOf sampleLines) [wideLetter]) ["a", "b"] 6000 = .ok (some [runesOf "a", runesOf "b"]) := by
  decide +kernel

/-- **C56** does not extend to any scale: with 2/5 or 3/5 there is no blank, or there are two. -/
theorem C56_scale_matters :
    linesOf forward (demo [.scaleFactor (2 / 5)]) ["aaaa", "bbbb"] 20 = .ok (some [runesOf "aaaabbbb"]) ∧
    linesOf forward (demo [.scaleFactor (3 / 5)]) ["aaaa", "bbbb"] 20 = .ok (some [runesOf "aaaa  bbbb"]) := by
  decide +kernel

/-- **C58** fails: the lines depend on the walk of the map of candidates. -/
theorem C58_walk_fails :
    Walks forward ∧ Walks backward ∧
    linesOf forward (demo []) ["aaaa", "bbbb", "cccccccc"] 10 = .ok (some [runesOf "aaaa bbbb", runesOf "cccccccc"]) ∧
    linesOf backward (demo []) ["aaaa", "bbbb", "cccccccc"] 10 =
      .ok (some [runesOf "aaaa", runesOf "bbbb", runesOf "cccccccc"]) :=
  ⟨forward_walks, backward_walks, by decide +kernel⟩

/-- **C59** fails: three words are set on the lines `aaaa` and `bbbb cc`, for both walks; `aaaa bbbb` and `cc` are
acceptable lines with fewer demerits. -/
theorem C59_minimal_fails :
    (∀ rt ∈ [forward, backward],
      linesOf rt (demo []) ["aaaa", "bbbb", "cc"] 10 = .ok (some [runesOf "aaaa", runesOf "bbbb cc"])) ∧
    ∃ bodies bodies' d d', bodies.map (lineText [0x20]) = [runesOf "aaaa", runesOf "bbbb cc"] ∧
      bodies'.map (lineText [0x20]) = [runesOf "aaaa bbbb", runesOf "cc"] ∧
      Setting (measureOf (defaultOptions [unit]) demoText) 10 300 100 (Tolerated (defaultOptions [unit])) true false 1
        (paraSyms (splitterOf Env.ascii (dictOf sampleLines) (defaultOptions [unit])) (["aaaa", "bbbb", "cc"].map runesOf))
        bodies d ∧
      Setting (measureOf (defaultOptions [unit]) demoText) 10 300 100 (Tolerated (defaultOptions [unit])) true false 1
        (paraSyms (splitterOf Env.ascii (dictOf sampleLines) (defaultOptions [unit])) (["aaaa", "bbbb", "cc"].map runesOf))
        bodies' d' ∧ d' < d := by
  refine ⟨by simp only [List.mem_cons, List.not_mem_nil, or_false, forall_eq_or_imp, forall_eq]; decide +kernel, ?_⟩
  have e : paraSyms (splitterOf Env.ascii (dictOf sampleLines) (defaultOptions [unit])) (["aaaa", "bbbb", "cc"].map runesOf) =
    [.part (runesOf "aaaa"), .gap, .part (runesOf "bbbb"), .gap, .part (runesOf "cc")] := by decide +kernel
  rw [e]
  refine ⟨[[.part (runesOf "aaaa")], [.part (runesOf "bbbb"), .gap, .part (runesOf "cc")]],
    [[.part (runesOf "aaaa"), .gap, .part (runesOf "bbbb")], [.part (runesOf "cc")]], _, _, by decide +kernel, by decide +kernel,
    .brk [.part (runesOf "aaaa")] .gap ⟨_, _, rfl⟩ (by simp) (Or.inr ⟨by decide +kernel, by decide +kernel, ?_⟩)
      (.last [.part (runesOf "bbbb"), .gap, .part (runesOf "cc")] ⟨_, _, rfl⟩ (Or.inr ⟨by decide +kernel, by decide +kernel, ?_⟩)),
    .brk [.part (runesOf "aaaa"), .gap, .part (runesOf "bbbb")] .gap ⟨_, _, rfl⟩ (by simp)
      (Or.inr ⟨by decide +kernel, by decide +kernel, ?_⟩)
      (.last [.part (runesOf "cc")] ⟨_, _, rfl⟩ (Or.inr ⟨by decide +kernel, by decide +kernel, ?_⟩)), ?_⟩
  · unfold Tolerated; decide +kernel
  · unfold Tolerated; decide +kernel
  · unfold Tolerated; decide +kernel
  · unfold Tolerated; decide +kernel
  · decide +kernel

/-- **C60** fails: a blank line is made of empty words. -/
theorem C60_empty_words_fails : linesOf forward (demo []) ["", ""] 8 = .ok (some [[]]) := by decide +kernel

/-- The lines returned for some words after a call on other words. -/
def secondLines (rt : Runtime) (l : LineBreaker Rat) (before tokens : List String) (w : Rat) :
    Res (Option (List (List Rune))) := do
  let p ← leftAlignUniform rt Env.ascii l (before.map runesOf) w
  linesOf rt p.2 tokens w

/-- **C61** fails after a call on styled text: its first start sequence and its stop sequence are written again
around a paragraph without style. -/
theorem C61_styled_fails :
    secondLines forward (demo []) ["\x1b[1maaaa", "cccc\x1b[0m"] ["bbbb"] 4 =
      .ok (some [runesOf "\x1b[1mbbbb\x1b[0m"]) ∧
    linesOf forward (demo []) ["bbbb"] 4 = .ok (some [runesOf "bbbb"]) := by decide +kernel

/-- **C62** does not extend to a paragraph that starts with an empty word. -/
theorem C62_first_word_matters : linesOf forward (demo []) ["", ""] 8 = .ok (some [[]]) := by decide +kernel

end Verif.Props
