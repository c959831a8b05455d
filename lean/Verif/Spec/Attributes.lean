import Verif.Go.Basic

/-! # Specification of styled text

A styled text is a list of pieces, each with a start sequence (possibly empty), a text and a stop
sequence (possibly empty). A start sequence opens a style, a stop sequence closes the style opened
last. -/

namespace Verif.Spec
open Verif.Go

/-- A piece of styled text. -/
structure Piece where
  text : List Rune
  start : List Rune
  stop : List Rune
  deriving DecidableEq

/-- Number of pieces with a start sequence. -/
def starts (l : List Piece) : Nat := (l.filter (fun p => decide (p.start ≠ []))).length

/-- Number of pieces with a stop sequence. -/
def stops (l : List Piece) : Nat := (l.filter (fun p => decide (p.stop ≠ []))).length

/-- The styles open after a text, the one opened first at the head, when the styles `opened` are open
before it. -/
def openAfter : List (List Rune) → List Piece → List (List Rune)
  | opened, [] => opened
  | opened, p :: rest =>
    let opened := if p.start = [] then opened else opened ++ [p.start]
    let opened := if p.stop = [] then opened else opened.dropLast
    openAfter opened rest

/-- The stop sequences that close styles of interest in a text: `marks` tells, for each style open
before the text and from the one opened last, whether it is of interest. Styles opened in the text
are not. -/
def closing : List Bool → List Piece → List (List Rune)
  | _, [] => []
  | marks, p :: rest =>
    let marks := if p.start = [] then marks else false :: marks
    if p.stop = [] then closing marks rest
    else match marks with
      | true :: marks => p.stop :: closing marks rest
      | _ :: marks => closing marks rest
      | [] => closing [] rest

/-- Pieces without style. -/
inductive Plain : List Piece → Prop where
  | nil : Plain []
  | cons (t : List Rune) {l : List Piece} : Plain l → Plain (⟨t, [], []⟩ :: l)

/-- `Run l start stop`: one styled run, opened by its first piece and closed by its last one. -/
inductive Run : List Piece → List Rune → List Rune → Prop where
  | single (t : List Rune) {start stop : List Rune} : start ≠ [] → stop ≠ [] →
      Run [⟨t, start, stop⟩] start stop
  | many (t t' : List Rune) {start stop : List Rune} {l : List Piece} : start ≠ [] → stop ≠ [] →
      Plain l → Run (⟨t, start, []⟩ :: (l ++ [⟨t', [], stop⟩])) start stop

/-- Texts in which two consecutive styled runs have at least one piece without style in between, and
where only the last run may be left open. -/
inductive Separated : List Piece → Prop where
  | plain {l : List Piece} : Plain l → Separated l
  | unclosed {a b : List Piece} {start : List Rune} (t : List Rune) : start ≠ [] → Plain a → Plain b →
      Separated (a ++ ⟨t, start, []⟩ :: b)
  | run {a b : List Piece} {start stop : List Rune} : Plain a → Run b start stop → Separated (a ++ b)
  | cons {a b l : List Piece} {start stop : List Rune} (t : List Rune) : Plain a → Run b start stop →
      Separated l → Separated (a ++ b ++ ⟨t, [], []⟩ :: l)

/-- A text after which no style is open, and where as many were opened as closed. -/
def Balanced (l : List Piece) : Prop := openAfter [] l = [] ∧ starts l = stops l

/-- After the first `k` pieces of a text, no style is open; or the text is in the only run open there, and this run
has unstyled text, or nothing, on both sides. -/
inductive Clean (l : List Piece) (k : Nat) : Prop where
  | out : Balanced (l.take k) → Clean l k
  | inRun (pre mid tail : List Piece) (t start : List Rune) (j : Nat) :
      l = pre ++ ⟨t, start, []⟩ :: (mid ++ tail) → k = pre.length + 1 + j → j ≤ mid.length →
      start ≠ [] → Balanced pre → (pre = [] ∨ ∃ q t', pre = q ++ [⟨t', [], []⟩]) → Plain mid →
      (tail = [] ∨ ∃ t' stop rest, tail = ⟨t', [], stop⟩ :: rest ∧ stop ≠ [] ∧
        (rest = [] ∨ ∃ t'' rest', rest = ⟨t'', [], []⟩ :: rest')) → Clean l k

end Verif.Spec
