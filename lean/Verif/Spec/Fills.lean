import Verif.Spec.AnyCall

/-! # Lines that show all parts of a paragraph, whatever the widths -/

namespace Verif.Spec.LB
open Verif.Go Verif.Model Verif.Model.LB

variable {F : Type} [Arith F]

/-- A part of a word comes before the first space between words. -/
def StartsSet : List Sym → Prop
  | [] => True
  | .part _ :: _ => True
  | .gap :: _ => False
  | _ :: rest => StartsSet rest

/-- `Fills full g hy syms lines`: the lines set the symbols in order. At the start of a line, the symbols `dropped` are left out:
no part of a word is among them, and no space is left before the first part. `g` is written between two words. A line ends
before the symbol `s`, where a word may be cut; or, when it is `none`, before the space between two words, or at the end of
the paragraph. `hy` tells which text may be added there. With `full`, there is a part of a word on each line, the last one
possibly excepted. -/
inductive Fills (full : Bool) (g : List Rune) (hy : Option Sym → List Rune → Prop) : List Sym → List (List Rune) → Prop where
  | last (dropped line : List Sym) (h : List Rune) : (∀ t, .part t ∉ dropped) → StartsSet line → hy none h →
      Fills full g hy (dropped ++ line) [lineText g line ++ h]
  | line (dropped line : List Sym) (s : Option Sym) (h : List Rune) {rest : List Sym} {lines : List (List Rune)} :
      (∀ t, .part t ∉ dropped) → StartsSet line → (∀ t, s ≠ some (.part t)) → s ≠ some .gap →
      (s = none → rest = [] ∨ ∃ r, rest = .gap :: r) → hy s h → (full = true → ∃ t, .part t ∈ line) →
      Fills full g hy (s.toList ++ rest) lines →
      Fills full g hy (dropped ++ line ++ (s.toList ++ rest)) ((lineText g line ++ h) :: lines)

/-- The number of spaces written between two words: the rounded width of a space. -/
def spacesShown (o : Options F) : Int :=
  Arith.toInt (o.downScale (Arith.add (o.scale (o.measurer [0x20])) (Arith.mul (Arith.ofInt 0) (Arith.neg (Arith.ofInt 6)))))

/-- What is written between two words of a line. (If there are more than 2^46 spaces, none is ever written: the call
panics.) -/
def spacesBetween (o : Options F) : List Rune :=
  if spacesShown o ≤ 2 ^ 46 then List.replicate (spacesShown o).toNat 0x20 else []

/-- The penalties of places where a line ends. -/
def placePenalty (o : Options F) : Option Sym → F → Prop
  | some .soft, x => x = o.hyphenPenalty
  | some .hard, x => x = Arith.ofInt 200
  | some .mark, x => x = Arith.ofInt 400
  | _, x => x = Arith.ofInt 0 ∨ x = Arith.ofInt (-10000)

/-- What may be added at the end of a line: a hyphen, when hyphens are rendered and the penalty of the place is the one
of hyphenation points. -/
def mayEnd (o : Options F) (s : Option Sym) (h : List Rune) : Prop :=
  h = [] ∨ (h = [0x2D] ∧ o.renderHyphens = true ∧ ∃ x, placePenalty o s x ∧ Arith.eq x o.hyphenPenalty = true)

/-- What has to be added at the end of a line: a hyphen where a word is cut, when hyphens are rendered. -/
def mustEnd (o : Options F) (s : Option Sym) (h : List Rune) : Prop :=
  s = some .soft → o.renderHyphens = true → Arith.eq o.hyphenPenalty o.hyphenPenalty = true → h = [0x2D]

/-- What may be added at the end of a line: a hyphen, where a word is cut. -/
def softEnd (o : Options F) (s : Option Sym) (h : List Rune) : Prop :=
  h = [] ∨ (h = [0x2D] ∧ o.renderHyphens = true ∧ s = some .soft)

/-- Custom split functions lose no text. -/
structure KeepsText (o : Options F) : Prop where
  hyphenator : ∀ f, o.hyphenator = some f → ∀ t parts, f t = .ok parts → parts.flatten = t
  punctuator : ∀ f, o.punctuator = some f → ∀ t parts, f t = .ok parts → parts.flatten = t

/-- The text of the parts of words. -/
def partsText : List Sym → List Rune
  | [] => []
  | .part t :: rest => t ++ partsText rest
  | _ :: rest => partsText rest

end Verif.Spec.LB
