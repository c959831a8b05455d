import Verif.Spec.Layout
import Verif.Spec.Attributes

/-! # Specification of styled paragraphs broken into lines -/

namespace Verif.Spec.LB
open Verif.Go

/-- A text between a start sequence and a stop sequence, both possibly empty. -/
structure Span where
  start : List Rune
  text : List Rune
  stop : List Rune
  deriving DecidableEq

/-- A span as one piece. -/
def Span.piece (x : Span) : Piece := ⟨x.text, x.start, x.stop⟩

/-- The parts of words among symbols. -/
def parts : List Sym → List (List Rune)
  | [] => []
  | .part t :: rest => t :: parts rest
  | _ :: rest => parts rest

/-- Parts of words with a start sequence before the first one, and a stop sequence after the last one. -/
def dressParts (start stop : List Rune) : List (List Rune) → List Piece
  | [] => []
  | [t] => [⟨t, start, stop⟩]
  | t :: rest => ⟨t, start, []⟩ :: dressParts [] stop rest

/-- The symbols of a word made of spans. -/
def spansSyms (sp : Splitter) (xs : List Span) : List Sym := xs.flatMap (fun x => tokenSyms sp x.text)

/-- The symbols of a paragraph of words made of spans. -/
def styledSyms (sp : Splitter) : List (List Span) → List Sym
  | [] => []
  | [t] => spansSyms sp t
  | t :: rest => spansSyms sp t ++ .gap :: styledSyms sp rest

/-- The pieces of styled text of a paragraph, one for each part of a word. -/
def styledPieces (sp : Splitter) (tks : List (List Span)) : List Piece :=
  tks.flatMap (fun t => t.flatMap (fun x => dressParts x.start x.stop (parts (tokenSyms sp x.text))))

/-- The text of symbols set on a line, with the pieces for the parts of words. -/
def dress (g : List Rune) : List Sym → List Piece → List Rune
  | [], _ => []
  | .part _ :: rest, [] => dress g rest []
  | .part _ :: rest, p :: ps => p.start ++ p.text ++ p.stop ++ dress g rest ps
  | .gap :: rest, ps => g ++ dress g rest ps
  | _ :: rest, ps => dress g rest ps

/-- The start sequences of the styles open after `k` pieces. -/
def resumed (all : List Piece) (k : Nat) : List Rune := (openAfter [] (all.take k)).flatten

/-- The stop sequences that close, after `k` pieces, the styles open there. -/
def closed (all : List Piece) (k : Nat) : List Rune :=
  (closing (List.replicate (openAfter [] (all.take k)).length true) (all.drop k)).flatten

/-- The lines, each with its own styling, when `k` pieces are on the lines before. The first line starts as if the
first piece were on a line before. -/
def styledLines (g : List Rune) (all : List Piece) : Nat → List Line → List (List Rune)
  | _, [] => []
  | k, line :: rest =>
    (resumed all (max k 1) ++ dress g line.body (all.drop k) ++ line.ending ++ closed all (k + (parts line.body).length)) ::
      styledLines g all (k + (parts line.body).length) rest

/-- The numbers of pieces at the ends of the lines, when `k` pieces are on the lines before. -/
def cuts : Nat → List Line → List Nat
  | _, [] => []
  | k, line :: rest => (k + (parts line.body).length) :: cuts (k + (parts line.body).length) rest

/-- `Wrapped g opens closes all k lines out`: each line is written with the pieces for its parts of words, some
sequences of `opens` before it and some sequences of `closes` after it. -/
inductive Wrapped (g : List Rune) (opens closes : List (List Rune)) (all : List Piece) :
    Nat → List Line → List (List Rune) → Prop where
  | nil (k : Nat) : Wrapped g opens closes all k [] []
  | cons {k : Nat} {line : Line} {rest : List Line} {out : List (List Rune)} (a b : List (List Rune)) :
      (∀ x ∈ a, x ∈ opens) → (∀ x ∈ b, x ∈ closes) →
      Wrapped g opens closes all (k + (parts line.body).length) rest out →
      Wrapped g opens closes all k (line :: rest)
        ((a.flatten ++ dress g line.body (all.drop k) ++ line.ending ++ b.flatten) :: out)

end Verif.Spec.LB
