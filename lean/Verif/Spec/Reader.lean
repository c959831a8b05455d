import Verif.Spec.Utf8

/-! # Specification of a seekable reader of runes

`text` is what is read; `room` is the text followed by what lies behind it in memory, up to the
capacity of the slice: Go lets Slice look there. -/

namespace Verif.Spec
open Verif.Go

/-- The calls that can be made. -/
inductive ReaderOp where
  | read
  | seekStart (offset : Int)
  | seekCurrent (offset : Int)
  | seekEnd (offset : Int)
  | runes
  | slice (a b : Int)
  | slices (offsets : List Int)

/-- What a call returns; `panic` stands for any panic. -/
inductive ReaderOut where
  | eof
  | rune (r : Rune) (size : Int)
  | position (p : Int)
  | outOfRange
  | runes (rs : List Rune)
  | groups (gs : List (List Rune))
  | panic
deriving DecidableEq

/-- Bytes of a rune, -1 if it has no encoding. -/
def sizeOf (r : Rune) : Int := if IsScalar r then (utf8 r).length else -1

/-- The runes from `a` to `b`. -/
def rangeOf (room : List Rune) (a b : Int) : Option (List Rune) :=
  if 0 ≤ a ∧ a ≤ b ∧ b ≤ room.length then some ((room.drop a.toNat).take (b.toNat - a.toNat)) else none

/-- The offsets, two by two. -/
def pairs : List Int → Option (List (Int × Int))
  | [] => some []
  | [_] => none
  | a :: b :: rest => (pairs rest).map ((a, b) :: ·)

/-- All ranges, if all of them exist. -/
def ranges (room : List Rune) : List (Int × Int) → Option (List (List Rune))
  | [] => some []
  | (a, b) :: rest => match rangeOf room a b, ranges room rest with
    | some x, some xs => some (x :: xs)
    | _, _ => none

/-- A move to the position `target`. -/
def moveTo (text : List Rune) (pos : Nat) (target : Int) : ReaderOut × Nat :=
  if 0 ≤ target ∧ target ≤ text.length then (.position target, target.toNat) else (.outOfRange, pos)

/-- One call at the position `pos`: what it returns, and the position after it. -/
def readerStep (text room : List Rune) (pos : Nat) : ReaderOp → ReaderOut × Nat
  | .read => match text[pos]? with
    | some r => (.rune r (sizeOf r), pos + 1)
    | none => (.eof, pos)
  | .seekStart o => moveTo text pos o
  | .seekCurrent o => moveTo text pos (pos + o)
  | .seekEnd o => moveTo text pos (text.length + o)
  | .runes => (.runes (text.drop pos), pos)
  | .slice a b => (((rangeOf room a b).map ReaderOut.runes).getD .panic, pos)
  | .slices os => ((((pairs os).bind (ranges room)).map ReaderOut.groups).getD .panic, pos)

/-- A history of calls. -/
def readerRun (text room : List Rune) : Nat → List ReaderOp → List ReaderOut × Nat
  | pos, [] => ([], pos)
  | pos, op :: ops =>
    ((readerStep text room pos op).1 :: (readerRun text room (readerStep text room pos op).2 ops).1,
      (readerRun text room (readerStep text room pos op).2 ops).2)

end Verif.Spec
