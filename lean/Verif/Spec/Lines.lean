import Verif.Go.Basic

/-! # Specification of text files made of lines -/

namespace Verif.Spec

/-- The bytes of a file whose lines are `ls`: each line ends with a line feed, alone or after a carriage
return. The last line need not end with a line feed, if there is anything on it. -/
inductive FileOf : List Nat → List (List Nat) → Prop
  | nil : FileOf [] []
  | open_ (l : List Nat) (h : 0x0A ∉ l) (hne : l ≠ []) (hcr : l.getLast? ≠ some 0x0D) : FileOf l [l]
  | openCR (l : List Nat) (h : 0x0A ∉ l) : FileOf (l ++ [0x0D]) [l]
  | lf (l : List Nat) {d : List Nat} {ls : List (List Nat)} (h : 0x0A ∉ l) (hcr : l.getLast? ≠ some 0x0D)
      (hd : FileOf d ls) : FileOf (l ++ 0x0A :: d) (l :: ls)
  | crlf (l : List Nat) {d : List Nat} {ls : List (List Nat)} (h : 0x0A ∉ l)
      (hd : FileOf d ls) : FileOf (l ++ 0x0D :: 0x0A :: d) (l :: ls)

/-- No 65536 bytes in a row without a line feed: a line may have 65535 bytes, its carriage return
included. -/
def FitsBuffer (data : List Nat) : Prop :=
  ∀ pre line post, data = pre ++ line ++ post → 0x0A ∉ line → line.length ≤ 65535

/-- A line without its carriage return. -/
def chomp (l : List Nat) : List Nat := if l.getLast? = some 0x0D then l.dropLast else l

end Verif.Spec
