import Verif.Spec.Levels
import Verif.Spec.AnyCall

/-! # The sequences written around lines -/

namespace Verif.Spec.LB
open Verif.Go Verif.Model Verif.Model.LB Verif.Spec

/-- What is written at the start of a line after the piece number `n`: the start sequences of the group of this
piece, up to it; nothing at depth 0. -/
def Opening (all : List Piece) (n : Nat) (a : List Rune) : Prop :=
  ∃ b e, Group all n b e ∧ a = if depthAfter all n = 0 then [] else (startsOf ((all.take (n + 1)).drop b)).flatten

/-- What is written at the end of a line after the piece number `n`: the stop sequences of the group of this piece;
nothing at depth 0. -/
def Ending (all : List Piece) (n : Nat) (a : List Rune) : Prop :=
  ∃ b e, Group all n b e ∧ a = if depthAfter all n = 0 then [] else (stopsOf ((all.take e).drop b)).flatten

/-- `Written g all P k lines out`: the lines `out`, when `k` pieces of `P` are on the lines before. Each line is
written with the pieces of `P` for its parts of words. What is written before and after it is found in `all`, from as
many pieces; the first line starts as if one piece were on a line before. -/
inductive Written (g : List Rune) (all P : List Piece) : Nat → List Line → List (List Rune) → Prop where
  | nil (k : Nat) : Written g all P k [] []
  | cons {k : Nat} {line : Line} {rest : List Line} {out : List (List Rune)} (a b : List Rune) :
      Opening all (k - 1) a → Ending all (k + (parts line.body).length - 1) b →
      Written g all P (k + (parts line.body).length) rest out →
      Written g all P k (line :: rest) ((a ++ dress g line.body (P.drop k) ++ line.ending ++ b) :: out)

/-- The lines, when no sequence is added to the ones of the pieces. -/
def bareLines (g : List Rune) (P : List Piece) : Nat → List Line → List (List Rune)
  | _, [] => []
  | k, line :: rest => (dress g line.body (P.drop k) ++ line.ending) :: bareLines g P (k + (parts line.body).length) rest

variable {F : Type} [Arith F]

/-- `AnyHist env dict opts l H`: a line breaker made by New and then used on any words; `H` are the pieces of styled
text set by all these calls, whatever they returned. -/
inductive AnyHist (env : Env) (dict : Dictionary) (opts : List (Opt F)) : LineBreaker F → List Piece → Prop where
  | new : AnyHist env dict opts (new env dict opts) []
  | call {l l' : LineBreaker F} {H : List Piece} (rt : Runtime) (tokens : List (List Rune)) (tks : List (List Span))
      (maxWidth : F) (r : Option (List (List Rune))) :
      AnyHist env dict opts l H → List.Forall₂ (Found rt env) tokens tks →
      leftAlignUniform rt env l tokens maxWidth = .ok (r, l') →
      AnyHist env dict opts l' (H ++ styledPieces (splitterOf env dict (defaultOptions opts)) tks)

end Verif.Spec.LB
