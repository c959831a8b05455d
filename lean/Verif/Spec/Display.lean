import Verif.Spec.StyledCall

/-! # What a terminal shows

A terminal shows runes one after the other, in the style set by the sequences before them: a start sequence adds
its style to the current one, a stop sequence resets it. -/

namespace Verif.Spec.LB
open Verif.Go Verif.Model Verif.Spec.Ansi

/-- `Visible env l v`: `v` is what remains of `l` without its control sequences. -/
inductive Visible (env : Env) : List Rune → List Rune → Prop where
  | nil : Visible env [] []
  | rune {r : Rune} {l v : List Rune} : r ≠ 0x1B → Visible env l v → Visible env (r :: l) (r :: v)
  | seq {s : CtlSeq} {l v : List Rune} : s.WellFormed env → Visible env l v → Visible env (s.runes ++ l) v

/-- The start sequences in force. -/
abbrev Style := List (List Rune)

/-- A style added to the current one; adding it again changes nothing. -/
def turnOn (σ : Style) (s : List Rune) : Style := if s ∈ σ then σ else σ ++ [s]

/-- A rune shown in a style. -/
structure Cell where
  rune : Rune
  style : Style

/-- `Shows env σ l cells τ`: from the style `σ`, the text `l` shows these cells and leaves the style `τ`. -/
inductive Shows (env : Env) : Style → List Rune → List Cell → Style → Prop where
  | nil (σ : Style) : Shows env σ [] [] σ
  | rune {σ τ : Style} {r : Rune} {l : List Rune} {cells : List Cell} : r ≠ 0x1B → Shows env σ l cells τ →
      Shows env σ (r :: l) (⟨r, σ⟩ :: cells) τ
  | start {σ τ : Style} {s : CtlSeq} {l : List Rune} {cells : List Cell} : s.WellFormed env → s.Starts →
      Shows env (turnOn σ s.runes) l cells τ → Shows env σ (s.runes ++ l) cells τ
  | stop {σ τ : Style} {s : CtlSeq} {l : List Rune} {cells : List Cell} : s.WellFormed env → s.Stops →
      Shows env [] l cells τ → Shows env σ (s.runes ++ l) cells τ

/-! ## The text of the words -/

/-- A rune of a word, or the space between two words, in a style. -/
inductive Item where
  | cell (c : Cell)
  | gap (style : Style)

/-- The style of the text of a chunk. -/
def chunkStyle (σ : Style) (c : Chunk) : Style :=
  match c.start with
  | none => σ
  | some s => turnOn σ s.runes

/-- The style after a chunk. -/
def chunkAfter (σ : Style) (c : Chunk) : Style :=
  match c.stop with
  | none => chunkStyle σ c
  | some _ => []

/-- The runes of a text in a style. -/
def items (σ : Style) (t : List Rune) : List Item := t.map (fun r => .cell ⟨r, σ⟩)

/-- The style after a word. -/
def wordAfter (σ : Style) (w : List Chunk) : Style := w.foldl chunkAfter σ

/-- The contents of a word. -/
def wordItems : Style → List Chunk → List Item
  | _, [] => []
  | σ, c :: rest => items (chunkStyle σ c) c.text ++ wordItems (chunkAfter σ c) rest

/-- The contents of words separated by single gaps. -/
def paraItems : Style → List (List Chunk) → List Item
  | _, [] => []
  | σ, [w] => wordItems σ w
  | σ, w :: rest => wordItems σ w ++ .gap (wordAfter σ w) :: paraItems (wordAfter σ w) rest

/-! ## Lines -/

/-- What is shown for some contents, with `g` between words. -/
def expand (g : List Rune) : List Item → List Cell
  | [] => []
  | .cell c :: rest => c :: expand g rest
  | .gap σ :: rest => g.map (fun r => ⟨r, σ⟩) ++ expand g rest

/-- Each line, taken alone, shows its part of the contents in the styles of the whole text, and leaves no style in
force. A line ends between two words, where the gap disappears, or between two runes of a word. It may show a hyphen
at its end. -/
inductive Displays (env : Env) (g : List Rune) : List Item → List (List Rune) → Prop where
  | last {p : List Item} {line : List Rune} : Shows env [] line (expand g p) [] → Displays env g p [line]
  | gap {p rest : List Item} {σ : Style} {e line : List Rune} {lines : List (List Rune)} : e = [] ∨ e = [0x2D] →
      Shows env [] line (expand g p ++ e.map (fun r => ⟨r, σ⟩)) [] → Displays env g rest lines →
      Displays env g (p ++ .gap σ :: rest) (line :: lines)
  | inside {p rest : List Item} {c c' : Cell} {σ : Style} {e line : List Rune} {lines : List (List Rune)} :
      e = [] ∨ e = [0x2D] →
      Shows env [] line (expand g (p ++ [.cell c]) ++ e.map (fun r => ⟨r, σ⟩)) [] →
      Displays env g (.cell c' :: rest) lines →
      Displays env g (p ++ .cell c :: .cell c' :: rest) (line :: lines)

/-- A word closes the styles it opens, and is not divided if it is styled. -/
def StyledAlone (sp : Splitter) (cs : List Chunk) : Prop :=
  (Balanced ((cs.map chunkSpan).map Span.piece) ∧ ∀ c ∈ cs, tokenSyms sp c.text = [.part c.text]) ∨
    ∀ c ∈ cs, c.start = none ∧ c.stop = none

end Verif.Spec.LB
