import Verif.Spec.Attributes

/-! # Levels of the pieces of a styled text -/

namespace Verif.Spec
open Verif.Go

/-- The number of styles opened, minus the number of stops, after the piece number `n`. -/
def depthAfter (l : List Piece) (n : Nat) : Int := (starts (l.take (n + 1)) : Int) - stops (l.take (n + 1))

/-- The same in the piece number `k`: after its start, before its stop. -/
def levelAt (l : List Piece) (k : Nat) : Int := (starts (l.take (k + 1)) : Int) - stops (l.take k)

/-- The pieces from `b` on, before `e`, are the longest group around the piece number `n` where the level is never
below the depth after `n`. -/
structure Group (l : List Piece) (n b e : Nat) : Prop where
  lo : b ≤ n
  hi : n < e
  le : e ≤ l.length
  inside : ∀ k, b ≤ k → k < e → depthAfter l n ≤ levelAt l k
  left : b = 0 ∨ levelAt l (b - 1) < depthAfter l n
  right : e = l.length ∨ levelAt l e < depthAfter l n

/-- The start sequences of pieces. -/
def startsOf (l : List Piece) : List (List Rune) := (l.map Piece.start).filter (fun s => decide (s ≠ []))

/-- The stop sequences of pieces. -/
def stopsOf (l : List Piece) : List (List Rune) := (l.map Piece.stop).filter (fun s => decide (s ≠ []))

/-- Every stop in the first `n` pieces closes a style. -/
def NoStray (l : List Piece) (n : Nat) : Prop := ∀ k, k ≤ n → stops (l.take k) ≤ starts (l.take k)

end Verif.Spec
