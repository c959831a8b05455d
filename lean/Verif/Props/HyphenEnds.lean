import Verif.Props.Hyphenation

/-! # C87: words are not cut before the first letter -/

namespace Verif.Props
open Verif.Go Verif.Model Verif.Spec Verif.Proofs

theorem cutAt_nonempty (word : List Rune) : ∀ (cs : List Nat) (prev : Nat),
    cs.Pairwise (· < ·) → (∀ c ∈ cs, prev < c ∧ c < word.length) → prev < word.length →
    ∀ p ∈ cutAt word prev cs, p ≠ [] := by
  intro cs
  induction cs with
  | nil =>
    intro prev _ _ h p hp
    simp only [cutAt, List.mem_singleton] at hp
    subst hp
    intro e
    have := congrArg List.length e
    simp at this
    omega
  | cons c cs ih =>
    intro prev hs hb h p hp
    have hc := hb c (by simp)
    rcases List.mem_cons.mp hp with e | e
    · subst e
      intro e
      have := congrArg List.length e
      simp at this
      omega
    · rw [List.pairwise_cons] at hs
      exact ih c hs.2 (fun d hd => ⟨hs.1 d hd, (hb d (by simp [hd])).2⟩) hc.2 p e

/-- **C87**: whatever minLeft is (0 and negative values included), a non-empty word that is not an
exception is cut in non-empty parts, as long as minRight is at least 1. -/
theorem C87_no_empty_part_partial (env : Env) (dict : Dictionary) (o : HOptions) (word : List Rune)
    (hw : word ≠ []) (hr : 1 ≤ o.minRight) (he : dict.exceptions.get word = none) :
    ∃ parts, hyphenatorBreakWord env dict o word = .ok parts ∧ parts.flatten = word ∧
      ∀ p ∈ parts, p ≠ [] := by
  have hpos : 0 < word.length := List.length_pos_iff.mpr hw
  by_cases hc : containsHyphen word = true ∨ (word.length : Int) < o.minLength
  · rcases breakWord_cases env dict o word with ⟨_, h⟩ | ⟨h, _⟩
    · exact ⟨[word], h, by simp, by simpa using hw⟩
    · exact absurd hc h
  · obtain ⟨ps, h1, h2⟩ := breakWord_start env dict o word hc he
    have hi := cutsOf_isCuts o word.length ps
    have hb : ∀ c ∈ cutsOf o word.length ps 0 0, 0 < c ∧ c < word.length := by
      intro c hcm
      obtain ⟨⟨v, hv, hv0, _⟩, h4, _⟩ := (hi.mem_iff c).mp hcm
      refine ⟨Nat.pos_of_ne_zero fun e => ?_, by omega⟩
      subst e
      exact hv0 (h2 v hv)
    refine ⟨_, by rw [h1, splitAtPositions_cuts o (by omega)], ?_,
      cutAt_nonempty word _ 0 hi.increasing hb hpos⟩
    rw [cutAt_flatten word _ 0 hi.increasing fun c hc => ⟨Nat.zero_le _, Nat.le_of_lt (hb c hc).2⟩]
    simp

/-- The patterns `1a` and `ab1`. -/
def endLines : List (List Rune) := [runesOf "\\patterns{", runesOf "1a ab1", runesOf "}"]

/-- `1a` allows a break before the first letter: it is not taken even with minLeft 0. -/
theorem start_not_cut : hyphenatorBreakWord Env.ascii (dictOf endLines) ⟨4, 0, 1⟩ (runesOf "aaca") =
    .ok [runesOf "a", runesOf "aca"] := by decide +kernel

/-- **C87**, minRight 0, is false: a value after the last letter is removed only if there is none before
the first, as the two cases are the branches of one `switch`. The last part is then empty, though
without the value before the first letter it is not. -/
theorem C87_both_ends_fails :
    hyphenatorBreakWord Env.ascii (dictOf endLines) ⟨4, 2, 0⟩ (runesOf "aaab") =
      .ok [runesOf "aa", runesOf "ab", []] ∧
    hyphenatorBreakWord Env.ascii (dictOf endLines) ⟨4, 2, 0⟩ (runesOf "caab") =
      .ok [runesOf "ca", runesOf "ab"] := by
  constructor <;> decide +kernel

end Verif.Props
