import Verif.Spec.Linebreak
import Verif.Spec.Styled

/-! # Calls of LeftAlignUniform on styled text -/

namespace Verif.Spec.LB
open Verif.Go Verif.Model Verif.Model.LB Verif.Spec.Ansi

variable {F : Type} [Arith F]

/-- The span of a chunk. -/
def chunkSpan (c : Chunk) : Span := ⟨seqRunes c.start, c.text, seqRunes c.stop⟩

/-- The word made of some chunks. -/
def chunkWord (cs : List Chunk) : List Rune := cs.flatMap Chunk.runes

/-- The chunks of a word: there is at least one, they are good, with a sequence between any two texts, and the word
has a length that fits in an `int`. -/
structure ChunkWord (env : Env) (cs : List Chunk) : Prop where
  some : cs ≠ []
  good : ∀ c ∈ cs, c.Good env
  apart : Apart cs
  short : ((chunkWord cs).length : Int) < 2 ^ 63

/-- The spans of words. -/
def spansOf (words : List (List Chunk)) : List (List Span) := words.map (fun cs => cs.map chunkSpan)

/-- The texts of words. -/
def chunkTexts (words : List (List Chunk)) : List (List (List Rune)) := words.map (fun cs => cs.map Chunk.text)

/-- The text `hy` added by lines that end at a place: a hyphen or nothing. It is a hyphen where a word is cut, and only
there, when the penalty of hyphens differs from the other ones. -/
structure HyphenText (o : Options F) (hy : Sym → List Rune) : Prop where
  short : ∀ s, hy s = [] ∨ hy s = [0x2D]
  at_cuts : (o.renderHyphens = true → OwnPenalty o) → ∀ s, (∀ t, s ≠ .part t) → hy s = hyphenAt o s

/-- `StyledUsed env dict opts l hist`: a line breaker made by New and then used on words made of chunks; `hist`
are the pieces of styled text of all these calls. -/
inductive StyledUsed (env : Env) (dict : Dictionary) (opts : List (Opt F)) : LineBreaker F → List Piece → Prop where
  | new : StyledUsed env dict opts (new env dict opts) []
  | call {l l' : LineBreaker F} {hist : List Piece} (rt : Runtime) (words : List (List Chunk)) (maxWidth : F)
      (r : Option (List (List Rune))) :
      StyledUsed env dict opts l hist → (∀ cs ∈ words, ChunkWord env cs) →
      leftAlignUniform rt env l (words.map chunkWord) maxWidth = .ok (r, l') →
      StyledUsed env dict opts l'
        (hist ++ styledPieces (splitterOf env dict (defaultOptions opts)) (spansOf words))

/-- A call of `LeftAlignUniform(tokens, maxWidth)`, with sane options, on words made of chunks. `W` is the requested
width after scaling. The widths must be represented exactly. -/
structure StyledCall [Laws F] (rt : Runtime) (env : Env) (dict : Dictionary) (opts : List (Opt F))
    (text : List Rune → Int) (n : Nat) (l : LineBreaker F) (hist : List Piece) (words : List (List Chunk))
    (maxWidth : F) (W : Int) : Prop where
  used : StyledUsed env dict opts l hist
  sane : Sane (defaultOptions opts) text n
  walks : Walks rt
  digits : AsciiDigits env
  made : ∀ cs ∈ words, ChunkWord env cs
  scaled : (defaultOptions opts).scale maxWidth = Arith.ofInt W
  exact : lineWidth (measureOf (defaultOptions opts) text)
      (styledSyms (splitterOf env dict (defaultOptions opts)) (spansOf words)) +
    (measureOf (defaultOptions opts) text).hyphen + |W| ≤ Laws.bound F

end Verif.Spec.LB
