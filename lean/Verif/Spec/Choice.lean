import Verif.Spec.Linebreak

/-! # Which of the acceptable lines are chosen -/

namespace Verif.Spec.LB
open Verif.Go Verif.Model Verif.Model.LB

/-- `Left P syms first rest`: lines for which `P` holds may be set with the start of the text, so that the
next line starts with `rest`. `first` tells that the next line is the first one. -/
inductive Left (P : Bool → List Sym → Option Sym → Prop) (syms : List Sym) : Bool → List Sym → Prop where
  | start : Left P syms true syms
  | line {first : Bool} (p : List Sym) (s : Sym) {rest : List Sym} : Left P syms first (p ++ s :: rest) →
      StartsWithPart p → (∀ t, s ≠ .part t) → P first p (some s) → Left P syms false (startLine rest)

/-- How loose an acceptable line is: 1 up to half of its stretch, 2 up to its stretch, 3 beyond. -/
def looseness (F : Type) [Arith F] (m : Measure) (W : Int) (first : Bool) (p : List Sym) (s : Option Sym) : Int :=
  let w := lineWidth m p + endWidth m s
  let r : F := Arith.div (Arith.ofInt (W - w)) (Arith.ofInt (lineStretch m first p s))
  if w = W then 1 else if Arith.le r (Arith.tenths 5) then 1 else if Arith.le r (Arith.ofInt 1) then 2 else 3

/-- A line with the symbols `p` that ends at `s`, with `rest` left: it starts as early as possible. The other
lines that end at the same place, may be set there and are as loose according to `cls` do not start earlier. -/
def Earliest (P : Bool → List Sym → Option Sym → Prop) (cls : Bool → List Sym → Option Sym → Int) (syms : List Sym)
    (first : Bool) (p : List Sym) (s : Option Sym) (rest : List Sym) : Prop :=
  ∀ (q : List Sym) (f : Bool), Left P syms f (q ++ p ++ s.toList ++ rest) → P f (q ++ p) s →
    cls f (q ++ p) s = cls first p s → q = []

/-- A line with the symbols `p` that ends at `s`, with `rest` left: it ends as early as possible. The other lines
that may be set, after which the same text is left to set, do not end earlier; and when a word ends at the space
`s` and a line that fills the width exactly according to `full` may end there, the line is such a line. -/
def EndsEarly (P : Bool → List Sym → Option Sym → Prop) (full : List Sym → Option Sym → Prop) (syms : List Sym)
    (p : List Sym) (s : Sym) (rest : List Sym) : Prop :=
  ∀ (f : Bool) (p' : List Sym) (s' : Sym) (rest' : List Sym), Left P syms f (p' ++ s' :: rest') → StartsWithPart p' →
    (∀ t, s' ≠ .part t) → P f p' (some s') → startLine rest' = startLine rest →
    rest'.length ≤ rest.length ∧
      (rest'.length = rest.length → s' = .gap → (∃ t, p'.getLast? = some (.part t)) → full p' (some s') → full p (some s))

/-- The width of a line is the width of the paragraph. -/
def FillsLine (m : Measure) (W : Int) (p : List Sym) (s : Option Sym) : Prop := lineWidth m p + endWidth m s = W

/-- **The lines that may be chosen**: acceptable ones, that start as early as possible and end as early as possible. -/
def Chosen (F : Type) [Arith F] (m : Measure) (W : Int) (ok : Int → Int → Prop) (syms : List Sym)
    (first : Bool) (p : List Sym) (s : Option Sym) (rest : List Sym) : Prop :=
  Acceptable m W ok first p s ∧ Earliest (Acceptable m W ok) (looseness F m W) syms first p s rest ∧
    ∀ t, s = some t → EndsEarly (Acceptable m W ok) (FillsLine m W) syms p t rest

/-- `Laid hy P first syms lines`: a layout without blank lines (see `Layout`) where `P` also takes what is left
after a line. -/
inductive Laid (hy : Sym → List Rune) (P : Bool → List Sym → Option Sym → List Sym → Prop) :
    Bool → List Sym → List Line → Prop where
  | last {first : Bool} (p : List Sym) : StartsWithPart p → P first p none [] → Laid hy P first p [⟨p, []⟩]
  | brk {first : Bool} (p : List Sym) (s : Sym) {rest : List Sym} {lines : List Line} :
      StartsWithPart p → (∀ t, s ≠ .part t) → P first p (some s) rest →
      Laid hy P false (startLine rest) lines → Laid hy P first (p ++ s :: rest) (⟨p, hy s⟩ :: lines)

end Verif.Spec.LB
