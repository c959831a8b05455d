import Verif.Spec.Layout

/-! # Paragraphs divided into pieces that are not divided further -/

namespace Verif.Spec.LB
open Verif.Go

/-- The symbols of pieces, each with the place before it where a line may end. -/
def joinPieces : List (Sym × List Sym) → List Sym
  | [] => []
  | (s, u) :: rest => s :: (u ++ joinPieces rest)

/-- The place where a line that ends before the next piece ends; `none` at the end of the paragraph. -/
def nextPlace (rest : List (Sym × List Sym)) : Option Sym := (rest.map Prod.fst).head?

/-- Pieces that may start a line, and fit on a line of width `W` with the hyphen added after them. The space left by a
line that has no room for the next piece is at most `B`. -/
def PiecesFit (m : Measure) (W B : Int) : List (Sym × List Sym) → Prop
  | [] => True
  | (s, u) :: rest =>
    (∀ t, s ≠ .part t) ∧ (s = .soft → m.addHyphens = true) ∧ StartsWithPart u ∧
    openMark (u ++ (nextPlace rest).toList) = 0 ∧
    lineWidth m u + endWidth m (nextPlace rest) ≤ W ∧
    lineWidth m (s :: u) + endWidth m (nextPlace rest) - endWidth m (some s) ≤ B + 1 ∧
    PiecesFit m W B rest

/-- The pieces of a word without punctuation marks and hyphens: its syllables, unless words may not be broken or
it is too short. -/
def piecesOf (sp : Splitter) (w : List Rune) : List (List Rune) :=
  if sp.breakWords = false ∨ (w.length : Int) ≤ sp.short then [w] else sp.syllables w

end Verif.Spec.LB
