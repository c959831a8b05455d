import Verif.Model.Panics
import Verif.Spec.AnyCall

/-! # Line breakers whose calls may have panicked -/

namespace Verif.Spec.LB
open Verif.Go Verif.Model Verif.Model.LB Verif.Spec.Ansi

variable {F : Type} [Arith F]

/-- `seqs` has all the sequences that StripToken finds in words. -/
def HasSeqs (rt : Runtime) (env : Env) (tokens seqs : List (List Rune)) : Prop :=
  ∀ t ∈ tokens, ∀ xs, Found rt env t xs → ∀ x ∈ xs, x.start ∈ seqs ∧ x.stop ∈ seqs

/-- `Survived env dict opts l seqs`: a line breaker made by New and then used on any words, in calls that returned, or
panicked and were recovered from; `seqs` has the sequences found in all these words. -/
inductive Survived (env : Env) (dict : Dictionary) (opts : List (Opt F)) : LineBreaker F → List (List Rune) → Prop where
  | new : Survived env dict opts (new env dict opts) []
  | call {l : LineBreaker F} {seqs seqs' : List (List Rune)} (rt : Runtime) (tokens : List (List Rune)) (maxWidth : F) :
      Survived env dict opts l seqs → HasSeqs rt env tokens seqs' →
      Survived env dict opts (alignL rt env l tokens maxWidth).1 (seqs ++ seqs')

end Verif.Spec.LB
