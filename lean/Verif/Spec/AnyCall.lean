import Verif.Spec.StyledCall

/-! # Calls of LeftAlignUniform on words of any runes -/

namespace Verif.Spec.LB
open Verif.Go Verif.Model Verif.Model.LB Verif.Spec.Ansi

variable {F : Type} [Arith F]

/-- The runes of a span. -/
def Span.runes (x : Span) : List Rune := x.start ++ x.text ++ x.stop

/-- `StripToken([]rune(token))` returns, and finds the spans `xs`; the conversion may have unused capacity. -/
def Found (rt : Runtime) (env : Env) (token : List Rune) (xs : List Span) : Prop :=
  ∃ toks mem, Ansi.stripToken env (token ++ rt.spare token) ⟨0, token.length⟩ = .ok (toks, mem) ∧
    toks.map (fun t => (⟨fieldRunes mem t.start, textRunes mem t.text, fieldRunes mem t.stop⟩ : Span)) = xs

/-- The start and the stop of a span are empty or sequences of their kind. -/
def Span.Styled (env : Env) (x : Span) : Prop :=
  (x.start = [] ∨ ∃ s : CtlSeq, s.WellFormed env ∧ s.Short ∧ s.Starts ∧ x.start = s.runes) ∧
  (x.stop = [] ∨ ∃ s : CtlSeq, s.WellFormed env ∧ s.Short ∧ s.Stops ∧ x.stop = s.runes)

/-- The sequences of spans. -/
def seqsOf (tks : List (List Span)) : List (List Rune) := tks.flatMap (fun xs => xs.flatMap (fun x => [x.start, x.stop]))

/-- The texts of words, without the sequences found. -/
def textsOf (tks : List (List Span)) : List (List Rune) := tks.map (fun xs => xs.flatMap Span.text)

/-- `AnyUsed env dict opts l seqs`: a line breaker made by New and then used on any words; `seqs` are the sequences
found in them. -/
inductive AnyUsed (env : Env) (dict : Dictionary) (opts : List (Opt F)) : LineBreaker F → List (List Rune) → Prop where
  | new : AnyUsed env dict opts (new env dict opts) []
  | call {l l' : LineBreaker F} {seqs : List (List Rune)} (rt : Runtime) (tokens : List (List Rune)) (tks : List (List Span))
      (maxWidth : F) (r : Option (List (List Rune))) :
      AnyUsed env dict opts l seqs → List.Forall₂ (Found rt env) tokens tks →
      leftAlignUniform rt env l tokens maxWidth = .ok (r, l') → AnyUsed env dict opts l' (seqs ++ seqsOf tks)

/-- A call of `LeftAlignUniform(tokens, maxWidth)`, with sane options, on words of any runes in which the spans `tks`
are found. There is some text in the first word. `W` is the requested width after scaling. The widths must be
represented exactly. -/
structure AnyCall [Laws F] (rt : Runtime) (env : Env) (dict : Dictionary) (opts : List (Opt F))
    (text : List Rune → Int) (n : Nat) (l : LineBreaker F) (seqs : List (List Rune)) (tokens : List (List Rune))
    (tks : List (List Span)) (maxWidth : F) (W : Int) : Prop where
  used : AnyUsed env dict opts l seqs
  sane : Sane (defaultOptions opts) text n
  walks : Walks rt
  digits : AsciiDigits env
  found : List.Forall₂ (Found rt env) tokens tks
  first : ∃ xs, tks.head? = some xs ∧ ∃ x ∈ xs, x.text ≠ []
  scaled : (defaultOptions opts).scale maxWidth = Arith.ofInt W
  exact : lineWidth (measureOf (defaultOptions opts) text)
      (styledSyms (splitterOf env dict (defaultOptions opts)) tks) +
    (measureOf (defaultOptions opts) text).hyphen + |W| ≤ Laws.bound F

/-- `Sprinkled seqs t line`: the line is the text `t` in which sequences of `seqs` are inserted. -/
inductive Sprinkled (seqs : List (List Rune)) : List Rune → List Rune → Prop where
  | nil : Sprinkled seqs [] []
  | rune (r : Rune) {t line : List Rune} : Sprinkled seqs t line → Sprinkled seqs (r :: t) (r :: line)
  | seq (s : List Rune) {t line : List Rune} : s ∈ seqs → Sprinkled seqs t line → Sprinkled seqs t (s ++ line)

end Verif.Spec.LB
