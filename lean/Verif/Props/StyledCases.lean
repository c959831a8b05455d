import Verif.Props.Styled

/-! # C61, C64, C65, C67: cases

A styled paragraph that meets the hypotheses of the theorems of `Verif.Props.Styled`, and paragraphs where the
properties fail. -/

namespace Verif.Props
open Verif.Go Verif.Model Verif.Model.LB Verif.Spec Verif.Spec.Ansi Verif.Spec.LB Verif.Proofs Verif.Proofs.LB

local instance styledLaws : Laws Rat := ratLaws (2 ^ 53) (le_refl _)

/-- ESC[1m and ESC[0m. -/
def bold : CtlSeq := ⟨[0x31], [], 0x6D⟩

def reset : CtlSeq := ⟨[0x30], [], 0x6D⟩

theorem bold_good : bold.WellFormed Env.ascii ∧ bold.Short ∧ bold.Starts := by
  refine ⟨⟨by decide, by decide, by decide, by simp [IsSep, bold]⟩, ⟨by decide, by decide⟩, Or.inr (Or.inr ⟨rfl, ?_⟩)⟩
  simp [CtlSeq.ZeroArg, bold]

theorem reset_good : reset.WellFormed Env.ascii ∧ reset.Short ∧ reset.Stops := by
  refine ⟨⟨by decide, by decide, by decide, by simp [IsSep, reset]⟩, ⟨by decide, by decide⟩, Or.inr (Or.inr ⟨rfl, ?_⟩)⟩
  simp [CtlSeq.ZeroArg, reset]

/-- A chunk of a text, bold from there on if `b`, no longer bold after it if `e`. -/
def boldChunk (b e : Bool) (t : String) : Chunk := ⟨if b then some bold else none, runesOf t, if e then some reset else none⟩

theorem boldChunk_good (b e : Bool) (t : String) (h1 : (0x1B : Rune) ∉ runesOf t) (h2 : runesOf t ≠ []) :
    (boldChunk b e t).Good Env.ascii := by
  refine ⟨h1, h2, ?_, ?_⟩
  · intro s hs
    cases b with
    | false => simp [boldChunk] at hs
    | true => simp [boldChunk] at hs; subst hs; exact bold_good
  · intro s hs
    cases e with
    | false => simp [boldChunk] at hs
    | true => simp [boldChunk] at hs; subst hs; exact reset_good

theorem boldWord_made (b e : Bool) (t : String) (h1 : (0x1B : Rune) ∉ runesOf t) (h2 : runesOf t ≠ [])
    (h3 : ((chunkWord [boldChunk b e t]).length : Int) < 2 ^ 63) : ChunkWord Env.ascii [boldChunk b e t] :=
  ⟨by simp, by simpa using boldChunk_good b e t h1 h2, trivial, h3⟩

/-- Words of which the second and the third are bold. -/
def styledWords : List (List Chunk) :=
  [[boldChunk false false "x,"], [boldChunk true false "aabbdcc"], [boldChunk false true "yyyy"], [boldChunk false false "zz"]]

/-- The same words, not styled. -/
def unstyledWords : List (List Chunk) :=
  [[boldChunk false false "x,"], [boldChunk false false "aabbdcc"], [boldChunk false false "yyyy"], [boldChunk false false "zz"]]

theorem styledWords_made : ∀ cs ∈ styledWords, ChunkWord Env.ascii cs := by
  intro cs h
  simp only [styledWords, List.mem_cons, List.not_mem_nil, or_false] at h
  rcases h with rfl | rfl | rfl | rfl <;> exact boldWord_made _ _ _ (by decide) (by decide) (by decide +kernel)

theorem unstyledWords_made : ∀ cs ∈ unstyledWords, ChunkWord Env.ascii cs := by
  intro cs h
  simp only [unstyledWords, List.mem_cons, List.not_mem_nil, or_false] at h
  rcases h with rfl | rfl | rfl | rfl <;> exact boldWord_made _ _ _ (by decide) (by decide) (by decide +kernel)

theorem demo_scaled (W : Int) : (defaultOptions [unit]).scale (Arith.ofInt W : Rat) = Arith.ofInt W := by
  show Arith.round (Arith.mul (Arith.ofInt W) (Arith.ofInt 1 : Rat)) = _
  rw [Laws.mul_one, Laws.round_int]

theorem styled_call {rt : Runtime} (hw : Walks rt) : StyledCall rt Env.ascii (dictOf sampleLines) [unit] demoText 1 (demo []) []
    styledWords (Arith.ofInt 5 : Rat) 5 :=
  ⟨.new, sane_demo, hw, digits_ascii, styledWords_made, demo_scaled 5, by decide +kernel⟩

theorem unstyled_call {rt : Runtime} (hw : Walks rt) : StyledCall rt Env.ascii (dictOf sampleLines) [unit] demoText 1 (demo []) []
    unstyledWords (Arith.ofInt 5 : Rat) 5 :=
  ⟨.new, sane_demo, hw, digits_ascii, unstyledWords_made, demo_scaled 5, by decide +kernel⟩

def styledLinesDemo : List (List Rune) :=
  ["x,", "\x1b[1maa-\x1b[0m", "\x1b[1mbbdcc\x1b[0m", "\x1b[1myyyy\x1b[0m", "zz"].map runesOf

theorem styled_run : ∃ l', leftAlignUniform forward Env.ascii (demo []) (styledWords.map chunkWord) (Arith.ofInt 5 : Rat) =
    .ok (some styledLinesDemo, l') := by
  have e : styledWords.map chunkWord = ["x,", "\x1b[1maabbdcc", "yyyy\x1b[0m", "zz"].map runesOf := by decide +kernel
  rw [e]
  exact linesOf_ok (by decide +kernel)

theorem styled_separate : Separated ((spansOf styledWords).flatten.map Span.piece) := by
  have e : (spansOf styledWords).flatten.map Span.piece = [⟨runesOf "x,", [], []⟩] ++
      [⟨runesOf "aabbdcc", bold.runes, []⟩, ⟨runesOf "yyyy", [], reset.runes⟩] ++ [⟨runesOf "zz", [], []⟩] := by decide +kernel
  rw [e]
  exact .cons (l := []) _ (.cons _ .nil) (.many (l := []) _ _ (by decide) (by decide) .nil) (.plain .nil)

/-! The hypotheses of the theorems are met. -/

example : ∀ cs ∈ styledWords, ∀ ch ∈ cs, (∃ line ∈ styledLinesDemo, seqRunes ch.start <:+: line) ∧
    (∃ line ∈ styledLinesDemo, seqRunes ch.stop <:+: line) := by
  obtain ⟨l', h⟩ := styled_run
  exact C64_sequences_partial (styled_call forward_walks) (by decide) h

example : ∃ hy ls, HyphenText (defaultOptions [unit]) hy ∧
    Layout hy (Acceptable (measureOf (defaultOptions [unit]) demoText) 5 (Tolerated (defaultOptions [unit]))) false true
      (styledSyms (splitterOf Env.ascii (dictOf sampleLines) (defaultOptions [unit])) (spansOf styledWords)) ls ∧
    styledLinesDemo = styledLines [0x20]
      (styledPieces (splitterOf Env.ascii (dictOf sampleLines) (defaultOptions [unit])) (spansOf styledWords)) 0 ls := by
  obtain ⟨l', h⟩ := styled_run
  exact C65_separated_partial (styled_call forward_walks) (by decide) styled_separate h

/-- The pieces and the lines in this case: the second and the third line end inside the run. -/
example : styledPieces (splitterOf Env.ascii (dictOf sampleLines) (defaultOptions [unit])) (spansOf styledWords) =
    [⟨runesOf "x", [], []⟩, ⟨runesOf ",", [], []⟩, ⟨runesOf "aa", bold.runes, []⟩, ⟨runesOf "bb", [], []⟩, ⟨runesOf "dcc", [], []⟩,
      ⟨runesOf "yyyy", [], reset.runes⟩, ⟨runesOf "zz", [], []⟩] := by decide +kernel

/-- The unstyled text is set too, with the same parts of words on the lines. -/
example : ∃ lines l', leftAlignUniform forward Env.ascii (demo []) (unstyledWords.map chunkWord) (Arith.ofInt 5 : Rat) =
    .ok (some lines, l') := by
  obtain ⟨l', h⟩ := styled_run
  rcases C67_same_breaks_partial (styled_call forward_walks) (unstyled_call forward_walks) (by decide) (by decide +kernel) with
    ⟨l₁, l₂, h1, _⟩ | ⟨l₁, l₂, lines, lines', _, _, _, h2, _⟩
  · rw [h1] at h; cases h
  · exact ⟨lines', l₂, h2⟩

/-! ## Failures -/

/-- **C61** fails on styled text, even after a call on unstyled text: the lines are not closed and resumed as by a new line
breaker, and a line without style is set in bold. -/
theorem C61_styled_text_fails :
    secondLines forward (demo []) ["xxxx", "yyyy"] ["xxxx", "\x1b[1maaaa", "bbbb", "cccc\x1b[0m", "dddd"] 4 =
      .ok (some (["xxxx", "\x1b[1maaaa", "bbbb", "cccc\x1b[0m\x1b[0m", "\x1b[1mdddd\x1b[0m"].map runesOf)) ∧
    linesOf forward (demo []) ["xxxx", "\x1b[1maaaa", "bbbb", "cccc\x1b[0m", "dddd"] 4 =
      .ok (some (["xxxx", "\x1b[1maaaa\x1b[0m", "\x1b[1mbbbb\x1b[0m", "\x1b[1mcccc\x1b[0m", "dddd"].map runesOf)) := by
  decide +kernel

/-- **C64** fails for a sequence without text: it is dropped. -/
theorem C64_sequence_alone_fails :
    linesOf forward (demo []) ["\x1b[1m", "aaaa"] 5 = .ok (some [runesOf "aaaa"]) ∧
    linesOf forward (demo []) ["aa\x1b[1m", "bbbb"] 7 = .ok (some [runesOf "aa bbbb"]) := by decide +kernel

/-- **C65** fails at the start of a paragraph: when its first part of a word opens a run that goes on, the start sequence is
written twice. -/
theorem C65_first_line_fails :
    linesOf forward (demo []) ["\x1b[1maaaa", "bbbb\x1b[0m"] 4 =
      .ok (some (["\x1b[1m\x1b[1maaaa\x1b[0m", "\x1b[1mbbbb\x1b[0m"].map runesOf)) := by decide +kernel

/-- **C65** fails when a run follows another at once: the line that ends in the second run writes the stop sequences of
both, and the next line starts with the start sequences of both. -/
theorem C65_adjacent_fails :
    linesOf forward (demo []) ["\x1b[1maaaa\x1b[0m", "\x1b[4mbbbb", "cccc\x1b[0m"] 4 =
      .ok (some (["\x1b[1maaaa\x1b[0m", "\x1b[4mbbbb\x1b[0m\x1b[0m", "\x1b[1m\x1b[4mcccc\x1b[0m"].map runesOf)) := by
  decide +kernel

/-- **C65** fails for an unclosed run: its lines are not closed. -/
theorem C65_unclosed_fails :
    linesOf forward (demo []) ["xxxx", "\x1b[1maaaa", "bbbb"] 4 =
      .ok (some (["xxxx", "\x1b[1maaaa", "\x1b[1mbbbb"].map runesOf)) := by decide +kernel

end Verif.Props
