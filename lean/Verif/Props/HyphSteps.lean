import Verif.Proofs.HyphSteps
import Verif.Proofs.Hyphenator
import Verif.Props.HyphenEnds

/-! # C106: the work of hyphenating a word -/

namespace Verif.Props
open Verif.Go Verif.Model Verif.Spec Verif.Proofs

/-- **C106.** The function that counts its rounds has the same results as BreakWord. -/
theorem C106_counted (env : Env) (dict : Dictionary) (o : HOptions) (word : List Rune) :
    (hyphenatorBreakWordC env dict o word).res = hyphenatorBreakWord env dict o word :=
  breakWordC_res env dict o word

/-- **C106.** With the dictionary of a file whose lines have at most `L` runes, the loops of BreakWord make at most
`n (1 + (n + 1) (L + 2) + L (L + 1)) + 4 n + 2 L + 60` rounds for a word of `n` runes. -/
theorem C106_quadratic (env : Env) (id : List Rune) (lines : List (List Rune)) (L : Nat) (hL : ∀ l ∈ lines, l.length ≤ L)
    (dict : Dictionary) (h : loadPatterns env id lines = .ok dict) (o : HOptions) (word : List Rune) :
    (hyphenatorBreakWordC env dict o word).steps ≤
      word.length * (1 + (word.length + 1) * (L + 2) + L * (L + 1)) + 4 * word.length + 2 * L + 60 := by
  obtain ⟨hp, he⟩ := loaded_bounded env id lines L hL dict h
  exact breakWordC_steps env dict o word hp fun v hv => he.size _ v hv

/-- **C106.** And no less than half the square of the length, for every dictionary, even an empty one, and every word that
is neither short, nor hyphenated, nor an exception: the letters after a fragment that begins no pattern are read too. -/
theorem C106_no_less (env : Env) (dict : Dictionary) (o : HOptions) (word : List Rune)
    (h1 : ∀ r ∈ word, isHyphenRune r = false) (h2 : o.minLength ≤ word.length) (h3 : dict.exceptions.get word = none) :
    word.length * word.length ≤ 2 * (hyphenatorBreakWordC env dict o word).steps := by
  refine breakWordC_lower env dict o word ?_ h2 h3
  cases h : containsHyphen word with
  | false => rfl
  | true =>
    obtain ⟨r, hr, hh⟩ := (containsHyphen_iff word).mp h
    rw [h1 r hr] at hh
    cases hh

/-- A case: with patterns of lines of at most 10 runes, 78 rounds for "aaca". -/
theorem aaca_steps : (hyphenatorBreakWordC Env.ascii (dictOf endLines) ⟨4, 2, 2⟩ (runesOf "aaca")).steps = 78 ∧
    (∀ l ∈ endLines, l.length ≤ 10) ∧ (∀ r ∈ runesOf "aaca", isHyphenRune r = false) ∧
    (dictOf endLines).exceptions.get (runesOf "aaca") = none := by
  decide +kernel

/-- A word of 38 letters: the positions grow beyond the 30 there are at first, and these rounds are counted. -/
theorem grown_steps : (hyphenatorBreakWordC Env.ascii (dictOf endLines) ⟨4, 2, 2⟩
      (List.replicate 34 0x78 ++ runesOf "aaca")).steps = 1724 ∧
    (mergeOneC 34 [0, 1] 0 (List.replicate 30 0)).steps = 8 := by
  constructor <;> decide +kernel

end Verif.Props
