import Verif.Go.Unicode

/-! # Specification: lines without their comments -/

namespace Verif.Spec
open Verif.Go

/-- `t` is what remains of a line without its comment, which starts at the first `%`, and without the white space at
both ends. -/
def CommentFree (line t : List Rune) : Prop :=
  ∃ a b, line.takeWhile (· ≠ 0x25) = a ++ t ++ b ∧ (∀ r ∈ a, isSpace r = true) ∧ (∀ r ∈ b, isSpace r = true) ∧
    (∀ r, t.head? = some r → isSpace r = false) ∧ (∀ r, t.getLast? = some r → isSpace r = false)

/-- The line is empty or a comment as a whole. -/
def WholeComment (line : List Rune) : Prop := line = [] ∨ line.head? = some 0x25

/-- The lines of a file without comments, one for each line that is not a comment as a whole. -/
inductive CommentFreeLines : List (List Rune) → List (List Rune) → Prop
  | nil : CommentFreeLines [] []
  | comment {l : List Rune} {ls ts : List (List Rune)} (h : WholeComment l) (hs : CommentFreeLines ls ts) :
      CommentFreeLines (l :: ls) ts
  | text {l t : List Rune} {ls ts : List (List Rune)} (h : ¬ WholeComment l) (ht : CommentFree l t)
      (hs : CommentFreeLines ls ts) : CommentFreeLines (l :: ls) (t :: ts)

end Verif.Spec
