import Verif.Spec.Layout

/-! # Text with empty words

The text of words between which there may be empty ones, that is several gaps in a row. -/

namespace Verif.Spec.LB
open Verif.Go

/-- As `Reflow`, when there may be several gaps in a row: at a gap where a line ends, this gap and those that follow
disappear. -/
inductive ReflowRuns (g : List Rune) (atGap : List Rune → Prop) (inWord : Rune → List Rune → Prop) :
    List Ch → List (List Rune) → Prop where
  | last (p : List Ch) : ReflowRuns g atGap inWord p [chText g p]
  | gap (p : List Ch) (h : List Rune) {rest : List Ch} {lines : List (List Rune)} :
      atGap h → ReflowRuns g atGap inWord (rest.dropWhile (fun c => decide (c = .gap))) lines →
      ReflowRuns g atGap inWord (p ++ .gap :: rest) ((chText g p ++ h) :: lines)
  | inside (p : List Ch) (r r' : Rune) (h : List Rune) {rest : List Ch} {lines : List (List Rune)} :
      inWord r h → ReflowRuns g atGap inWord (.rune r' :: rest) lines →
      ReflowRuns g atGap inWord (p ++ .rune r :: .rune r' :: rest) ((chText g (p ++ [.rune r]) ++ h) :: lines)

end Verif.Spec.LB
