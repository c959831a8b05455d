import Verif.Props.StyledCases
import Verif.Props.Fit
import Verif.Props.Limit

/-! # The failures, in float64

The paragraphs of `LinebreakCases`, `Fit` and `StyledCases` where a property fails, computed with IEEE 754 numbers instead
of rationals. -/

namespace Verif.Props
open Verif.Go Verif.Model Verif.Model.LB Verif.Spec Verif.Spec.Ansi Verif.Spec.LB Verif.Proofs Verif.Proofs.LB

/-- Every rune has width 1. -/
def unit64 : Opt F64 := .measurer (fun rs => Arith.ofInt rs.length)

/-- The line breaker made by New with some options, after the measurer of runes. -/
def demo64 (opts : List (Opt F64)) : LineBreaker F64 := new Env.ascii (dictOf sampleLines) (unit64 :: opts)

/-- The lines returned for some words. -/
def linesOf64 (rt : Runtime) (l : LineBreaker F64) (tokens : List String) (w : Int) : Res (Option (List (List Rune))) :=
  (leftAlignUniform rt Env.ascii l (tokens.map runesOf) (Arith.ofInt w)).map Prod.fst

/-- The lines returned for some words after a call on other words. -/
def secondLines64 (rt : Runtime) (l : LineBreaker F64) (before tokens : List String) (w : Int) :
    Res (Option (List (List Rune))) := do
  let p ← leftAlignUniform rt Env.ascii l (before.map runesOf) (Arith.ofInt w)
  linesOf64 rt p.2 tokens w

/-- **C51**, **C57** fail in float64 when the penalty of hyphens is the one of marks, of hyphens in words or of spaces. -/
theorem C57_float64_fails :
    linesOf64 forward (demo64 [.hyphenPenalty (Arith.ofInt 400)]) ["aaaa,", "bbbb"] 5 =
      .ok (some [runesOf "aaaa,-", runesOf "bbbb"]) ∧
    linesOf64 forward (demo64 [.hyphenPenalty (Arith.ofInt 200)]) ["aaaa-bbbb"] 5 =
      .ok (some [runesOf "aaaa--", runesOf "bbbb"]) ∧
    linesOf64 forward (demo64 [.hyphenPenalty (Arith.ofInt 0)]) ["aaaa", "bbbb"] 5 =
      .ok (some [runesOf "aaaa-", runesOf "bbbb"]) := by decide +kernel

/-- **C54** fails in float64. -/
theorem C54_float64_fails : linesOf64 forward (demo64 []) ["", "", "", "aaaa"] 4 = .error .slice := by decide +kernel

/-- **C56** does not extend to any scale, in float64. -/
theorem C56_float64_scale_matters :
    linesOf64 forward (demo64 [.scaleFactor (Arith.tenths 4)]) ["aaaa", "bbbb"] 20 = .ok (some [runesOf "aaaabbbb"]) ∧
    linesOf64 forward (demo64 [.scaleFactor (Arith.tenths 6)]) ["aaaa", "bbbb"] 20 = .ok (some [runesOf "aaaa  bbbb"]) := by
  decide +kernel

/-- **C58** fails in float64: the lines depend on the walk of the map of candidates. -/
theorem C58_float64_fails :
    Walks forward ∧ Walks backward ∧
    linesOf64 forward (demo64 []) ["aaaa", "bbbb", "cccccccc"] 10 = .ok (some [runesOf "aaaa bbbb", runesOf "cccccccc"]) ∧
    linesOf64 backward (demo64 []) ["aaaa", "bbbb", "cccccccc"] 10 =
      .ok (some [runesOf "aaaa", runesOf "bbbb", runesOf "cccccccc"]) :=
  ⟨forward_walks, backward_walks, by decide +kernel⟩

/-- **C59** fails in float64: the lines are those of `C59_minimal_fails`, though others have fewer demerits. -/
theorem C59_float64_fails :
    ∀ rt ∈ [forward, backward],
      linesOf64 rt (demo64 []) ["aaaa", "bbbb", "cc"] 10 = .ok (some [runesOf "aaaa", runesOf "bbbb cc"]) := by
  simp only [List.mem_cons, List.not_mem_nil, or_false, forall_eq_or_imp, forall_eq]; decide +kernel

/-- **C60** fails in float64. -/
theorem C60_float64_fails : linesOf64 forward (demo64 []) ["", ""] 8 = .ok (some [[]]) := by decide +kernel

/-- **C61** fails in float64, after a call on styled text, and on styled text after a call on unstyled text. -/
theorem C61_float64_fails :
    (secondLines64 forward (demo64 []) ["\x1b[1maaaa", "cccc\x1b[0m"] ["bbbb"] 4 =
        .ok (some [runesOf "\x1b[1mbbbb\x1b[0m"]) ∧
      linesOf64 forward (demo64 []) ["bbbb"] 4 = .ok (some [runesOf "bbbb"])) ∧
    secondLines64 forward (demo64 []) ["xxxx", "yyyy"] ["xxxx", "\x1b[1maaaa", "bbbb", "cccc\x1b[0m", "dddd"] 4 =
      .ok (some (["xxxx", "\x1b[1maaaa", "bbbb", "cccc\x1b[0m\x1b[0m", "\x1b[1mdddd\x1b[0m"].map runesOf)) ∧
    linesOf64 forward (demo64 []) ["xxxx", "\x1b[1maaaa", "bbbb", "cccc\x1b[0m", "dddd"] 4 =
      .ok (some (["xxxx", "\x1b[1maaaa\x1b[0m", "\x1b[1mbbbb\x1b[0m", "\x1b[1mcccc\x1b[0m", "dddd"].map runesOf)) := by
  decide +kernel

/-- **C64** fails in float64. -/
theorem C64_float64_fails :
    linesOf64 forward (demo64 []) ["\x1b[1m", "aaaa"] 5 = .ok (some [runesOf "aaaa"]) ∧
    linesOf64 forward (demo64 []) ["aa\x1b[1m", "bbbb"] 7 = .ok (some [runesOf "aa bbbb"]) := by decide +kernel

/-- **C65** fails in float64: at the start of a paragraph, for a run that follows another, for an unclosed run. -/
theorem C65_float64_fails :
    linesOf64 forward (demo64 []) ["\x1b[1maaaa", "bbbb\x1b[0m"] 4 =
      .ok (some (["\x1b[1m\x1b[1maaaa\x1b[0m", "\x1b[1mbbbb\x1b[0m"].map runesOf)) ∧
    linesOf64 forward (demo64 []) ["\x1b[1maaaa\x1b[0m", "\x1b[4mbbbb", "cccc\x1b[0m"] 4 =
      .ok (some (["\x1b[1maaaa\x1b[0m", "\x1b[4mbbbb\x1b[0m\x1b[0m", "\x1b[1m\x1b[4mcccc\x1b[0m"].map runesOf)) ∧
    linesOf64 forward (demo64 []) ["xxxx", "\x1b[1maaaa", "bbbb"] 4 =
      .ok (some (["xxxx", "\x1b[1maaaa", "\x1b[1mbbbb"].map runesOf)) := by decide +kernel

/-- **C69** fails in float64, for wide words and for a word that starts with a mark. -/
theorem C69_float64_fails :
    (∀ rt ∈ [forward, backward],
      linesOf64 rt (demo64 [.wordBreak false]) ["aaa", String.ofList (List.replicate 60 'b')] 60 = .ok none) ∧
    linesOf64 forward (demo64 [.wordBreak false]) ["aaa", String.ofList (List.replicate 60 'b')] 64 =
      .ok (some [runesOf "aaa " ++ List.replicate 60 0x62]) ∧
    (∀ rt ∈ [forward, backward], linesOf64 rt (demo64 [.wordBreak false]) ["aaaa", "(b", "cccc"] 5 = .ok none) ∧
    linesOf64 forward (demo64 [.wordBreak false]) ["aaaa", "bb", "cccc"] 5 =
      .ok (some [runesOf "aaaa", runesOf "bb", runesOf "cccc"]) := by
  simp only [List.mem_cons, List.not_mem_nil, or_false, forall_eq_or_imp, forall_eq]; decide +kernel

/-- **C71** fails in float64. -/
theorem C71_float64_fails :
    linesOf64 forward (demo64 [.wordBreak false]) ["aaaaa", "-bbbb", "cccccc"] 6 =
      .ok (some [runesOf "aaaaa", runesOf "-bbbb", runesOf "cccccc"]) ∧
    ∀ rt ∈ [forward, backward], linesOf64 rt (demo64 [.wordBreak true]) ["aaaaa", "-bbbb", "cccccc"] 6 = .ok none := by
  simp only [List.mem_cons, List.not_mem_nil, or_false, forall_eq_or_imp, forall_eq]; decide +kernel

/-- **C72** fails in float64. -/
theorem C72_float64_fails :
    linesOf64 forward (demo64 []) ["aabbdcc", "aabbdcc"] 6 =
      .ok (some [runesOf "aa-", runesOf "bbdcc", runesOf "aa-", runesOf "bbdcc"]) ∧
    ∀ rt ∈ [forward, backward], linesOf64 rt (demo64 [.renderHyphens false]) ["aabbdcc", "aabbdcc"] 6 = .ok none := by
  simp only [List.mem_cons, List.not_mem_nil, or_false, forall_eq_or_imp, forall_eq]; decide +kernel

end Verif.Props
