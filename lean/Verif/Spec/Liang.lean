import Verif.Go.Basic

/-! # Specification of hyphenation

Frank Liang's algorithm, stated declaratively. A pattern assigns a list of values to a string of
letters: the `j`-th value belongs to the gap just before the `j`-th letter (one extra value may follow
the last letter). -/

namespace Verif.Spec
open Verif.Go

/-- A dictionary of patterns: the values of a string of letters, if it is a pattern. -/
abbrev Patterns := List Rune → Option (List Int)

/-- The text `w` has an occurrence, at offset `a`, of a pattern with values `vals`. -/
def Occurs (P : Patterns) (w : List Rune) (a : Nat) (vals : List Int) : Prop :=
  ∃ pre frag post, w = pre ++ frag ++ post ∧ pre.length = a ∧ frag ≠ [] ∧ P frag = some vals

/-- `v` is the value of the gap before index `g` of `w`: the greatest of 0 and of the values that
pattern occurrences give to this gap. -/
structure GapValue (P : Patterns) (w : List Rune) (g : Nat) (v : Int) : Prop where
  nonneg : 0 ≤ v
  attained : v = 0 ∨ ∃ a vals j, Occurs P w a vals ∧ vals[j]? = some v ∧ a + j = g
  greatest : ∀ a vals j u, Occurs P w a vals → vals[j]? = some u → a + j = g → u ≤ v

/-- `cuts` are the positions where a word of length `n` is cut: each allowed position is taken, from
left to right, unless fewer than `minRight` letters would follow, or fewer than `minLeft` letters
separate it from the beginning of the word or from the previous cut. -/
structure IsCuts (allowed : Nat → Prop) (minLeft minRight : Int) (n : Nat) (cuts : List Nat) : Prop where
  increasing : cuts.Pairwise (· < ·)
  mem_iff : ∀ i, i ∈ cuts ↔
    allowed i ∧ minRight ≤ (n : Int) - i ∧ minLeft ≤ (i : Int) ∧
      ∀ c ∈ cuts, c < i → minLeft ≤ (i : Int) - c

/-- The parts of `word` from position `prev` on, cut at the positions `cuts`. -/
def cutAt (word : List Rune) : Nat → List Nat → List (List Rune)
  | prev, [] => [word.drop prev]
  | prev, c :: cs => (word.drop prev).take (c - prev) :: cutAt word c cs

/-- The text that patterns are matched against: ".word." in lower case. -/
def dotted (lower : Rune → Rune) (word : List Rune) : List Rune :=
  0x2E :: (word.map lower ++ [0x2E])

end Verif.Spec
