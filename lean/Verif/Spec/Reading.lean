import Verif.Spec.Ansi

/-! # How any text is read, and split into results

A text is read from the left to the right as units: runs of runes and control sequences. The results of
`StripToken` are then groups of units. -/

namespace Verif.Spec.Ansi
open Verif.Go

/-- A unit of a text: a run of text, or a sequence that starts a style, ends one, or does neither. -/
inductive Lexeme where
  | text (t : List Rune)
  | start (s : List Rune)
  | stop (s : List Rune)
  | other (s : List Rune)
  deriving DecidableEq

/-- The runes of a unit. -/
def Lexeme.runes : Lexeme → List Rune
  | .text t => t
  | .start s => s
  | .stop s => s
  | .other s => s

/-- Runes read one by one, where ESC takes the next rune with it, which is not `[`. -/
inductive Letters : List Rune → Prop where
  | nil : Letters []
  | rune {r l} : r ≠ 0x1B → Letters l → Letters (r :: l)
  | pair {r l} : r ≠ 0x5B → Letters l → Letters (0x1B :: r :: l)

/-- `Reads env l us`: the text `l` is read as the units `us`. -/
inductive Reads (env : Env) : List Rune → List Lexeme → Prop where
  | nil : Reads env [] []
  /-- A run of text goes up to the next introducer, or to the end. -/
  | text {t l us} : Letters t → t ≠ [] → (l = [] ∨ ∃ m, l = introducer ++ m) → Reads env l us →
      Reads env (t ++ l) (.text t :: us)
  /-- The same when the text ends with ESC. -/
  | lastEsc {t} : Letters t → Reads env (t ++ [0x1B]) [.text (t ++ [0x1B])]
  | start {s l us} : CtlSeq.WellFormed env s → s.Short → s.Starts → Reads env l us →
      Reads env (s.runes ++ l) (.start s.runes :: us)
  | stop {s l us} : CtlSeq.WellFormed env s → s.Short → s.Stops → Reads env l us →
      Reads env (s.runes ++ l) (.stop s.runes :: us)
  | other {s l us} : CtlSeq.WellFormed env s → s.Short → ¬ s.Starts → ¬ s.Stops → Reads env l us →
      Reads env (s.runes ++ l) (.other s.runes :: us)
  /-- A parameter of three digits ends a sequence, with any rune after it. -/
  | long {h r l us} : LongHead env h → Reads env l us → Reads env (h ++ r :: l) (.other (h ++ [r]) :: us)
  /-- The text ends before the key code. -/
  | unfinished {o ds} : Opened env o → (∀ r ∈ ds, env.isDigit r = true) → ds.length ≤ 2 →
      Reads env (o ++ ds) [.other (o ++ ds)]

/-- Where a result stands: nothing of it read yet, its start sequence read, or its start sequence (possibly
none) and some text. -/
inductive Partial where
  | idle
  | opened (start : List Rune)
  | reading (start text : List Rune)

/-- The results for some units, as start sequence, text and stop sequence. A result is at most one start
sequence, then one run of text with the other sequences right behind it, or one other sequence, then, after
a run of text or no text, at most one stop sequence. -/
def resultsFrom : Partial → List Lexeme → List (List Rune × List Rune × List Rune)
  | .idle, [] => []
  | .idle, .text t :: us => resultsFrom (.reading [] t) us
  | .idle, .start s :: us => resultsFrom (.opened s) us
  | .idle, .stop p :: us => ([], [], p) :: resultsFrom .idle us
  | .idle, .other o :: us => ([], o, []) :: resultsFrom .idle us
  | .opened s, [] => [(s, [], [])]
  | .opened s, .text t :: us => resultsFrom (.reading s t) us
  | .opened s, .start s' :: us => (s, [], []) :: resultsFrom (.opened s') us
  | .opened s, .stop p :: us => (s, [], p) :: resultsFrom .idle us
  | .opened s, .other o :: us => (s, o, []) :: resultsFrom .idle us
  | .reading s t, [] => [(s, t, [])]
  | .reading s t, .text t' :: us => (s, t, []) :: resultsFrom (.reading [] t') us
  | .reading s t, .start s' :: us => (s, t, []) :: resultsFrom (.opened s') us
  | .reading s t, .stop p :: us => (s, t, p) :: resultsFrom .idle us
  | .reading s t, .other o :: us => resultsFrom (.reading s (t ++ o)) us

/-- The results for a text: one result, with nothing in it, for the empty text. -/
def results (us : List Lexeme) : List (List Rune × List Rune × List Rune) :=
  if us = [] then [([], [], [])] else resultsFrom .idle us

/-- The start sequences of units. -/
def startUnits (us : List Lexeme) : List (List Rune) :=
  us.filterMap (fun | .start s => some s | _ => none)

/-- The stop sequences of units. -/
def stopUnits (us : List Lexeme) : List (List Rune) :=
  us.filterMap (fun | .stop s => some s | _ => none)

/-- A unit that may be in a text. -/
def InText : Lexeme → Prop
  | .text _ | .other _ => True
  | _ => False

end Verif.Spec.Ansi
