import Verif.Spec.Linebreak
import Verif.Go.Float64

/-! # What the requested width may be

The argument `maxWidth` of LeftAlignUniform is any value of type float64. -/

namespace Verif.Spec.LB
open Verif.Go Verif.Model Verif.Model.LB Verif.Spec Verif.Spec.Ansi

/-- The float is the number `q`. -/
def IsValue (x : F64) (q : Rat) : Prop := ∃ s h1 h2, x = F64.fin s q h1 h2

/-- The float is a number less than `q`, or -Inf. -/
def Below (x : F64) (q : Rat) : Prop := x = .inf true ∨ ∃ p, IsValue x p ∧ p < q

/-- The float is a number not less than `q`, or +Inf. -/
def Above (x : F64) (q : Rat) : Prop := x = .inf false ∨ ∃ p, IsValue x p ∧ q ≤ p

/-- `Call`, without a requested width: words without escape sequences given to a line breaker with sane options; `B`
is not less than their width on one line, with a hyphen. -/
structure Paragraph (rt : Runtime) (env : Env) (dict : Dictionary) (opts : List (Opt F64))
    (text : List Rune → Int) (n : Nat) (l : LineBreaker F64) (tokens : List (List Rune)) (B : Int) : Prop where
  used : Used env dict opts l
  sane : Sane (defaultOptions opts) text n
  walks : Walks rt
  digits : AsciiDigits env
  escapeFree : ∀ t ∈ tokens, EscapeFree t
  width : lineWidth (measureOf (defaultOptions opts) text)
      (paraSyms (splitterOf env dict (defaultOptions opts)) tokens) +
    (measureOf (defaultOptions opts) text).hyphen ≤ B

end Verif.Spec.LB
