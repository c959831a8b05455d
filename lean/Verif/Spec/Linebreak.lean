import Verif.Model.Linebreak
import Verif.Spec.Layout
import Verif.Spec.Ansi
import Mathlib.Algebra.Order.Ring.Rat

/-! # Calls of LeftAlignUniform

The situations the theorems on package `linebreak` are about. -/

namespace Verif.Spec.LB
open Verif.Go Verif.Model Verif.Model.LB Verif.Spec.Ansi

variable {F : Type} [Arith F]

/-- The options chosen by a user are within their usual ranges: after scaling, texts have integral widths
`text`, and one space between two words is written as `n` blanks, for which a slice can be made; penalty and tolerance are neither
negative nor huge; custom split functions lose nothing and give no empty part. -/
structure Sane [Laws F] (o : Options F) (text : List Rune → Int) (n : Nat) : Prop where
  widths : ∀ t, o.scale (o.measurer t) = Arith.ofInt (text t)
  nonneg : ∀ t, 0 ≤ text t
  small : text [0x20] ≤ Laws.bound F
  noPad : Arith.toInt (o.downScale (Arith.ofInt 0)) = 0
  pad : Arith.toInt (o.downScale (Arith.ofInt (text [0x20]))) = n
  penalty : Within o.hyphenPenalty 10000
  finite : Arith.eq o.hyphenPenalty (Arith.ofInt 10000) = false
  notForced : Arith.eq o.hyphenPenalty (Arith.ofInt (-10000)) = false
  tolerance : Within o.tolerance 50
  hyphenator : ∀ f, o.hyphenator = some f →
    ∀ t, ∃ parts, f t = .ok parts ∧ parts ≠ [] ∧ parts.flatten = t ∧ (t ≠ [] → [] ∉ parts)
  punctuator : ∀ f, o.punctuator = some f → ∀ t, ∃ parts, f t = .ok parts ∧ parts.flatten = t ∧ [] ∉ parts
  room : n ≤ 2 ^ 46

/-- What a split function returns (these do not fail here). -/
def partsOf (r : Res (List (List Rune))) : List (List Rune) :=
  match r with
  | .ok parts => parts
  | .error _ => []

/-- How words are divided: by the punctuator and the hyphenator of the options, and at explicit hyphens. -/
def splitterOf (env : Env) (dict : Dictionary) (o : Options F) : Splitter where
  marks t := partsOf (match o.punctuator with
    | some f => f t
    | none => punctuatorBreakWord env t)
  isMark t := isPunctuation env t
  hyphens t := partsOf (splitWord t)
  isHyphen t := isHyphen t
  syllables t := partsOf (match o.hyphenator with
    | some f => f t
    | none => hyphenatorBreakWord env dict HOptions.default t)
  breakWords := o.wordBreak
  short := 4

/-- The widths in use. Without word breaking, hyphens have no width. -/
def measureOf (o : Options F) (text : List Rune → Int) : Measure where
  text := text
  space := text [0x20]
  hyphen := if o.wordBreak then text [0x2D] else 0
  addHyphens := o.renderHyphens

/-- The ratio of a missing width and a stretch is within the tolerance. -/
def Tolerated (o : Options F) (d s : Int) : Prop :=
  Arith.le (Arith.div (Arith.ofInt d) (Arith.ofInt s : F)) o.tolerance = true

/-- The text added by a line that ends at a place: a hyphen where a word is cut, when hyphens are rendered. -/
def hyphenAt (o : Options F) : Sym → List Rune
  | .soft => if o.renderHyphens then [0x2D] else []
  | _ => []

/-- The penalty of hyphenation points differs from those of the other places where a line may end: 0 between
words, 200 after an explicit hyphen, 400 after a punctuation mark. -/
structure OwnPenalty (o : Options F) : Prop where
  gap : Arith.eq (Arith.ofInt 0) o.hyphenPenalty = false
  hard : Arith.eq (Arith.ofInt 200) o.hyphenPenalty = false
  mark : Arith.eq (Arith.ofInt 400) o.hyphenPenalty = false
  number : Arith.eq o.hyphenPenalty o.hyphenPenalty = true

/-! ## Demerits -/

/-- The ratio of a line: the missing width by unit of stretch. -/
def lineRatio (m : Measure) (W : Int) (first : Bool) (p : List Sym) (s : Option Sym) : Rat :=
  ((W - (lineWidth m p + endWidth m s) : Int) : Rat) / (lineStretch m first p s : Rat)

/-- The class of a line that is not shrunk: decent, loose or very loose. -/
def lineClass (r : Rat) : Int := if r ≤ 1 / 2 then 1 else if r ≤ 1 then 2 else 3

/-- The penalty of the place where a line ends; `h` is the one of hyphenation points. -/
def linePenalty (h : Rat) : Option Sym → Rat
  | some .soft => h
  | some .hard => 200
  | some .mark => 400
  | _ => 0

/-- The places with a flag: two consecutive lines that end there are penalised. -/
def lineFlag : Option Sym → Bool
  | some .gap => false
  | _ => true

/-- The demerits of a line: its badness and penalty, an extra `f` after another flagged place and an extra
200 after a line of a distant class. -/
def lineDemerits (m : Measure) (W : Int) (h f : Rat) (first flag : Bool) (cls : Int) (p : List Sym)
    (s : Option Sym) : Rat :=
  let r := lineRatio m W first p s
  (10 + 100 * r ^ 3 + linePenalty h s) ^ 2 + (if flag && lineFlag s then f else 0) +
    (if 1 < |lineClass r - cls| then 200 else 0)

/-- `Setting m W h f ok first flag cls syms bodies d`: the symbols may be set on acceptable lines with the
given bodies, at the cost of `d` demerits. `flag` and `cls` are those of the line before. -/
inductive Setting (m : Measure) (W : Int) (h f : Rat) (ok : Int → Int → Prop) :
    Bool → Bool → Int → List Sym → List (List Sym) → Rat → Prop where
  | last {first flag : Bool} {cls : Int} (p : List Sym) : StartsWithPart p → Acceptable m W ok first p none →
      Setting m W h f ok first flag cls p [p] (lineDemerits m W h f first flag cls p none)
  | brk {first flag : Bool} {cls : Int} (p : List Sym) (s : Sym) {rest : List Sym} {bodies : List (List Sym)} {d : Rat} :
      StartsWithPart p → (∀ t, s ≠ .part t) → Acceptable m W ok first p (some s) →
      Setting m W h f ok false (lineFlag (some s)) (lineClass (lineRatio m W first p (some s))) (startLine rest) bodies d →
      Setting m W h f ok first flag cls (p ++ s :: rest) (p :: bodies)
        (lineDemerits m W h f first flag cls p (some s) + d)

/-- A text without escape sequence (and of a length that fits in an `int`). -/
def EscapeFree (t : List Rune) : Prop := (t.length : Int) < 2 ^ 63 ∧ ¬ introducer <:+: t

/-- A line breaker made by New and then used on texts without escape sequences. -/
inductive Used (env : Env) (dict : Dictionary) (opts : List (Opt F)) : LineBreaker F → Prop where
  | new : Used env dict opts (new env dict opts)
  | call {l l' : LineBreaker F} (rt : Runtime) (tokens : List (List Rune)) (maxWidth : F)
      (r : Option (List (List Rune))) :
      Used env dict opts l → (∀ t ∈ tokens, EscapeFree t) →
      leftAlignUniform rt env l tokens maxWidth = .ok (r, l') → Used env dict opts l'

/-- The walk of a map meets every key. -/
def Walks (rt : Runtime) : Prop := ∀ i n c, c ∈ rt.order i n

/-- A call of `LeftAlignUniform(tokens, maxWidth)`, with sane options and texts without escape sequences.
`W` is the requested width after scaling. The widths must be represented exactly. -/
structure Call [Laws F] (rt : Runtime) (env : Env) (dict : Dictionary) (opts : List (Opt F))
    (text : List Rune → Int) (n : Nat) (l : LineBreaker F) (tokens : List (List Rune)) (maxWidth : F)
    (W : Int) : Prop where
  used : Used env dict opts l
  sane : Sane (defaultOptions opts) text n
  walks : Walks rt
  digits : AsciiDigits env
  escapeFree : ∀ t ∈ tokens, EscapeFree t
  scaled : (defaultOptions opts).scale maxWidth = Arith.ofInt W
  exact : lineWidth (measureOf (defaultOptions opts) text)
      (paraSyms (splitterOf env dict (defaultOptions opts)) tokens) +
    (measureOf (defaultOptions opts) text).hyphen + |W| ≤ Laws.bound F

end Verif.Spec.LB
