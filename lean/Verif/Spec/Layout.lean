import Verif.Go.Basic

/-! # Specification of paragraphs broken into lines

A paragraph is a list of symbols: parts of words, separated by the places where a line may end. -/

namespace Verif.Spec.LB
open Verif.Go

/-- A symbol of a paragraph. -/
inductive Sym where
  | part (text : List Rune)  -- a part of a word, or a punctuation mark
  | gap                      -- between two words
  | soft                     -- a hyphenation point
  | mark                     -- after a punctuation mark
  | hard                     -- after an explicit hyphen
  deriving DecidableEq

/-- How words are divided into parts. -/
structure Splitter where
  marks : List Rune → List (List Rune)      -- at punctuation marks
  isMark : List Rune → Bool
  hyphens : List Rune → List (List Rune)    -- at explicit hyphens
  isHyphen : List Rune → Bool
  syllables : List Rune → List (List Rune)  -- at hyphenation points
  breakWords : Bool                         -- whether words may be broken
  short : Int                               -- words up to this length are not broken

/-- Dividing a word loses nothing, and gives no empty part. -/
structure Splitter.Lossless (sp : Splitter) : Prop where
  marks : ∀ t, (sp.marks t).flatten = t ∧ [] ∉ sp.marks t
  hyphens : ∀ t, (sp.hyphens t).flatten = t ∧ [] ∉ sp.hyphens t
  syllables : sp.breakWords = true → ∀ t, t ≠ [] → (sp.syllables t).flatten = t ∧ [] ∉ sp.syllables t

/-- The symbols of what is left of a word between explicit hyphens. -/
def wordSyms (sp : Splitter) (w : List Rune) : List Sym :=
  if sp.isHyphen w then [.part w, .hard]
  else ((sp.syllables w).map Sym.part).intersperse .soft

/-- The symbols of what is left of a word between punctuation marks. -/
def chunkSyms (sp : Splitter) (p : List Rune) : List Sym :=
  if sp.isMark p then [.part p, .mark]
  else if sp.breakWords = false ∨ (p.length : Int) ≤ sp.short then [.part p]
  else (sp.hyphens p).flatMap (wordSyms sp)

/-- The symbols of a word. -/
def tokenSyms (sp : Splitter) (t : List Rune) : List Sym := (sp.marks t).flatMap (chunkSyms sp)

/-- The symbols of a paragraph. -/
def paraSyms (sp : Splitter) : List (List Rune) → List Sym
  | [] => []
  | [t] => tokenSyms sp t
  | t :: rest => tokenSyms sp t ++ .gap :: paraSyms sp rest

/-- The text of symbols set on one line, with the text `g` between two words. -/
def lineText (g : List Rune) : List Sym → List Rune
  | [] => []
  | .part t :: rest => t ++ lineText g rest
  | .gap :: rest => g ++ lineText g rest
  | _ :: rest => lineText g rest

/-- What is left when a new line starts: places where a line may end are dropped. -/
def startLine : List Sym → List Sym
  | [] => []
  | .part t :: rest => .part t :: rest
  | _ :: rest => startLine rest

/-- The symbols start with a part of a word. -/
def StartsWithPart (p : List Sym) : Prop := ∃ t rest, p = .part t :: rest

/-- A line: what is set on it, and the text added at its end. -/
structure Line where
  body : List Sym
  ending : List Rune
  deriving DecidableEq

/-- The text of a line. -/
def Line.text (g : List Rune) (line : Line) : List Rune := lineText g line.body ++ line.ending

/-- `Layout hy P blank first syms lines`: the lines set the symbols in order. Each line but the last ends
at a place where it may, which adds the text `hy` of this place (only a gap may add nothing instead).
`P` holds for each line: its arguments tell whether it is the first one, what is set on it and where it
ends (`none` is the end of the paragraph). When `blank` is true there may be blank lines in between or at
the end. `first` tells that the first line of the list is the first line of the paragraph. -/
inductive Layout (hy : Sym → List Rune) (P : Bool → List Sym → Option Sym → Prop) (blank : Bool) :
    Bool → List Sym → List Line → Prop where
  | last {first : Bool} (p : List Sym) : StartsWithPart p → P first p none →
      Layout hy P blank first p [⟨p, []⟩]
  | brk {first : Bool} (p : List Sym) (s : Sym) (h : List Rune) {rest : List Sym} {lines : List Line} :
      StartsWithPart p → (∀ t, s ≠ .part t) → (h = hy s ∨ (s = .gap ∧ h = [])) → P first p (some s) →
      Layout hy P blank false (startLine rest) lines →
      Layout hy P blank first (p ++ s :: rest) (⟨p, h⟩ :: lines)
  | blankLine {first : Bool} {syms : List Sym} {lines : List Line} : blank = true →
      Layout hy P blank false syms lines → Layout hy P blank first syms (⟨[], []⟩ :: lines)
  | lastBlank {first : Bool} : blank = true → Layout hy P blank first [] [⟨[], []⟩]
  | blankAfter {first : Bool} (p : List Sym) {lines : List Line} : blank = true → StartsWithPart p →
      P first p none → Layout hy P blank false [] lines →
      Layout hy P blank first p (⟨p, []⟩ :: lines)

/-! ## Widths -/

/-- Measures: width of a text, of the space between words, of a hyphen added at the end of a line, and
whether one is added. -/
structure Measure where
  text : List Rune → Int
  space : Int
  hyphen : Int
  addHyphens : Bool

/-- The width of symbols set on one line. -/
def lineWidth (m : Measure) : List Sym → Int
  | [] => 0
  | .part t :: rest => m.text t + lineWidth m rest
  | .gap :: rest => m.space + lineWidth m rest
  | _ :: rest => lineWidth m rest

/-- The width added at the end of a line; `none` is the end of the paragraph. -/
def endWidth (m : Measure) : Option Sym → Int
  | some .soft => if m.addHyphens then m.hyphen else 0
  | _ => 0

/-- The stretch of a line that ends at a place: 6 units, 10000 at the end of the paragraph, and none at a
hyphenation point where no hyphen is added. A line other than the first that starts with a mark
(or a hyphen) has lost 6 units with the spaces dropped before it. -/
def lineStretch (m : Measure) (first : Bool) (p : List Sym) (s : Option Sym) : Int :=
  (match s with
    | none => 10000
    | some .soft => if m.addHyphens then 6 else 0
    | some _ => 6) -
  (if first then 0 else match p ++ s.toList with
    | _ :: .mark :: _ => 6
    | _ :: .hard :: _ => 6
    | _ => 0)

/-- A line is acceptable in the width `W`: it has the exact width, or the missing width is an acceptable
load for its stretch. -/
def Acceptable (m : Measure) (W : Int) (ok : Int → Int → Prop) (first : Bool) (p : List Sym)
    (s : Option Sym) : Prop :=
  let w := lineWidth m p + endWidth m s
  w = W ∨ (w < W ∧ 0 < lineStretch m first p s ∧ ok (W - w) (lineStretch m first p s))

/-- As `Acceptable`, when the first line is `e` columns wider than its text and loses the stretch `i`. -/
def AcceptableIn (i e : Int) (m : Measure) (W : Int) (ok : Int → Int → Prop) (first : Bool) (p : List Sym)
    (s : Option Sym) : Prop :=
  let w := lineWidth m p + endWidth m s + (if first then e else 0)
  let st := lineStretch m first p s - (if first then i else 0)
  w = W ∨ (w < W ∧ 0 < st ∧ ok (W - w) st)

/-! ### Paragraphs that start with empty words -/

/-- One for symbols that start with a mark (or a hyphen). -/
def openMark : List Sym → Nat
  | _ :: .mark :: _ => 1
  | _ :: .hard :: _ => 1
  | _ => 0

/-- The spaces counted on the first line of a paragraph with `k` empty words before the symbols `p`, though none is set. -/
def indentGaps (k : Nat) (p : List Sym) : Nat := k - (2 * k + openMark p) / 3

/-- The stretch lost by this line. -/
def indentLoss (k : Nat) (p : List Sym) : Int := if (2 * k + openMark p) % 3 = 0 then 0 else 6

/-- No line with nothing but empty words is acceptable. -/
def NoBlankFirst (m : Measure) (W : Int) (ok : Int → Int → Prop) (k : Nat) (p : List Sym) : Prop :=
  ∀ j : Nat, j < indentGaps k p →
    ¬ ((j : Int) * m.space = W ∨
      ((j : Int) * m.space < W ∧ 0 < 6 - indentLoss k p ∧ ok (W - j * m.space) (6 - indentLoss k p)))

/-- A paragraph can be set in the width `W`. -/
def Settable (m : Measure) (W : Int) (ok : Int → Int → Prop) (syms : List Sym) : Prop :=
  ∃ lines, Layout (fun _ => []) (Acceptable m W ok) false true syms lines

/-! ## Text -/

/-- A rune of a word, or a space between two words. -/
inductive Ch where
  | rune (r : Rune)
  | gap
  deriving DecidableEq

/-- The contents of words separated by single gaps. -/
def joined : List (List Rune) → List Ch
  | [] => []
  | [t] => t.map Ch.rune
  | t :: rest => t.map Ch.rune ++ .gap :: joined rest

/-- The text of a line, with `g` between words. -/
def chText (g : List Rune) : List Ch → List Rune
  | [] => []
  | .rune r :: rest => r :: chText g rest
  | .gap :: rest => g ++ chText g rest

/-- The lines contain the text, neither more nor less: a line ends between two words, where the gap
disappears, or between two runes of a word. It may have some text added at its end: `atGap` tells which
between two words, `inWord` which inside a word, after a given rune. -/
inductive Reflow (g : List Rune) (atGap : List Rune → Prop) (inWord : Rune → List Rune → Prop) :
    List Ch → List (List Rune) → Prop where
  | last (p : List Ch) : Reflow g atGap inWord p [chText g p]
  | gap (p : List Ch) (h : List Rune) {rest : List Ch} {lines : List (List Rune)} :
      atGap h → Reflow g atGap inWord rest lines →
      Reflow g atGap inWord (p ++ .gap :: rest) ((chText g p ++ h) :: lines)
  | inside (p : List Ch) (r r' : Rune) (h : List Rune) {rest : List Ch} {lines : List (List Rune)} :
      inWord r h → Reflow g atGap inWord (.rune r' :: rest) lines →
      Reflow g atGap inWord (p ++ .rune r :: .rune r' :: rest) ((chText g (p ++ [.rune r]) ++ h) :: lines)

end Verif.Spec.LB
