import Verif.Props.Indented
import Verif.Proofs.LBBlank

/-! # C54, C104: paragraphs of empty words, exactly -/

namespace Verif.Props
open Verif.Go Verif.Model Verif.Model.LB Verif.Spec Verif.Spec.Ansi Verif.Spec.LB Verif.Proofs Verif.Proofs.LB

section
variable {F : Type} [Arith F] [Laws F] {rt : Runtime} {env : Env} {dict : Dictionary} {opts : List (Opt F)}
  {text : List Rune → Int} {n : Nat} {l : LineBreaker F} {maxWidth : F} {W : Int} {k : Nat}

/-- The blank line made of `k` empty words is accepted: a third of the spaces is left, with the stretch of a last line,
short of one glue for two counts out of three. -/
def BlankFits (o : Options F) (space W : Int) (k : Nat) : Prop :=
  ((k / 3 : Nat) : Int) * space = W ∨
    ((k / 3 : Nat) : Int) * space < W ∧ Tolerated o (W - (k / 3 : Nat) * space) (if k % 3 = 2 then 10000 else 9994)

/-- **C104.** Exactly: two empty words or more are set as one empty line if and only if a third of the spaces between
them fits; otherwise they cannot be set. There is no panic, and no other line, for any number of them. -/
theorem C104_exact (c : Call rt env dict opts text n l (List.replicate k []) maxWidth W) (hW : 0 < W) (hk : 2 ≤ k) :
    ∃ l', (BlankFits (defaultOptions opts) (measureOf (defaultOptions opts) text).space W k →
        leftAlignUniform rt env l (List.replicate k []) maxWidth = .ok (some [[]], l')) ∧
      (¬ BlankFits (defaultOptions opts) (measureOf (defaultOptions opts) text).space W k →
        leftAlignUniform rt env l (List.replicate k []) maxWidth = .ok (none, l')) := by
  obtain ⟨j, rfl⟩ : ∃ j, k = j + 1 := ⟨k - 1, by omega⟩
  obtain ⟨l', h1, h2⟩ := call_blank c (by omega) hW
  have e : (if (j + 1) % 3 = 2 then (10000 : Int) else 9994) = if j % 3 = 1 then 10000 else 9994 := by
    by_cases h : j % 3 = 1
    · rw [if_pos h, if_pos (by omega)]
    · rw [if_neg h, if_neg (by omega)]
  unfold BlankFits
  rw [e]
  exact ⟨l', h2, h1⟩

/-- **C104.** A paragraph of empty words is refused in lines that are narrower than a third of its spaces. -/
theorem C104_narrow (c : Call rt env dict opts text n l (List.replicate k []) maxWidth W) (hW : 0 < W)
    (hn : W < ((k / 3 : Nat) : Int) * (measureOf (defaultOptions opts) text).space) :
    ∃ l', leftAlignUniform rt env l (List.replicate k []) maxWidth = .ok (none, l') := by
  have hk : 2 ≤ k := by
    by_contra h
    have : k / 3 = 0 := by omega
    rw [this] at hn
    simp at hn
    omega
  obtain ⟨l', _, h⟩ := C104_exact c hW hk
  refine ⟨l', h ?_⟩
  unfold BlankFits
  omega

/-- **C104.** Empty words, in any number, give one empty line or cannot be set. -/
theorem C104_one_line (c : Call rt env dict opts text n l (List.replicate k []) maxWidth W) (hW : 0 < W) :
    ∃ l', leftAlignUniform rt env l (List.replicate k []) maxWidth = .ok (none, l') ∨
      2 ≤ k ∧ leftAlignUniform rt env l (List.replicate k []) maxWidth = .ok (some [[]], l') := by
  match k, c with
  | 0, _ => exact ⟨_, Or.inl (align_nil rt env l maxWidth)⟩
  | 1, c =>
    obtain ⟨l', h⟩ := C60_empty_word_partial c hW
    exact ⟨_, Or.inl h⟩
  | k + 2, c =>
    obtain ⟨l', h1, h2⟩ := C104_exact c hW (by omega)
    by_cases h : BlankFits (defaultOptions opts) (measureOf (defaultOptions opts) text).space W (k + 2)
    · exact ⟨_, Or.inr ⟨by omega, h1 h⟩⟩
    · exact ⟨_, Or.inl (h2 h)⟩

/-- **C54**, for empty words: no panic, for any number of them and any positive width. -/
theorem C54_blank_partial (c : Call rt env dict opts text n l (List.replicate k []) maxWidth W) (hW : 0 < W) :
    ∃ r, leftAlignUniform rt env l (List.replicate k []) maxWidth = .ok r := by
  obtain ⟨l', h | ⟨_, h⟩⟩ := C104_one_line c hW
  · exact ⟨_, h⟩
  · exact ⟨_, h⟩

end

/-! ## Cases -/

section
local instance blankLaws : Laws Rat := ratLaws (2 ^ 53) (le_refl _)

theorem blank_call (k : Nat) (W : Int) (hx : ((List.intercalate [0x20] (List.replicate k ([] : List Rune))).length : Int) + 1 + |W| ≤ 2 ^ 53) :
    Call forward Env.ascii (dictOf sampleLines) [unit] demoText 1 (demo []) (List.replicate k []) (Arith.ofInt W : Rat) W := by
  have := indent_call (words := List.replicate k "") (W := W) (by
    intro t ht
    simp only [List.map_replicate] at ht
    rw [(List.mem_replicate.mp ht).2]
    decide) (by
    rw [List.map_replicate]; exact hx)
  rwa [List.map_replicate] at this

/-- Nine empty words: refused in a width of 2, one empty line in a width of 3 and of 80. -/
example : (∃ l', leftAlignUniform forward Env.ascii (demo []) (List.replicate 9 []) (Arith.ofInt 2) = .ok (none, l')) ∧
    (∃ l', leftAlignUniform forward Env.ascii (demo []) (List.replicate 9 []) (Arith.ofInt 3) = .ok (some [[]], l')) ∧
    (∃ l', leftAlignUniform forward Env.ascii (demo []) (List.replicate 9 []) (Arith.ofInt 80) = .ok (some [[]], l')) := by
  refine ⟨C104_narrow (blank_call 9 2 (by decide +kernel)) (by decide) (by decide +kernel), ?_, ?_⟩
  · obtain ⟨l', h, _⟩ := C104_exact (blank_call 9 3 (by decide +kernel)) (by decide) (by decide)
    exact ⟨l', h (Or.inl (by decide +kernel))⟩
  · obtain ⟨l', h, _⟩ := C104_exact (blank_call 9 80 (by decide +kernel)) (by decide) (by decide)
    refine ⟨l', h (Or.inr ⟨by decide +kernel, ?_⟩)⟩
    unfold Tolerated
    decide +kernel

/-- Two empty words in a width of 200000: the stretch of the last line is not enough. -/
example : ∃ l', leftAlignUniform forward Env.ascii (demo []) (List.replicate 2 []) (Arith.ofInt 200000) = .ok (none, l') := by
  obtain ⟨l', _, h⟩ := C104_exact (blank_call 2 200000 (by decide +kernel)) (by decide) (by decide)
  refine ⟨l', h ?_⟩
  rintro (e | ⟨_, e⟩)
  · exact absurd e (by decide +kernel)
  · revert e
    unfold Tolerated
    decide +kernel

example : linesOf forward (demo []) (List.replicate 9 "") 2 = .ok none ∧
    linesOf forward (demo []) (List.replicate 9 "") 3 = .ok (some [[]]) ∧
    linesOf forward (demo []) (List.replicate 8 "") 1 = .ok none ∧
    linesOf forward (demo []) (List.replicate 8 "") 2 = .ok (some [[]]) := by decide +kernel

example : ∃ r, leftAlignUniform forward Env.ascii (demo []) (List.replicate 100 []) (Arith.ofInt 4) = .ok r :=
  C54_blank_partial (blank_call 100 4 (by decide +kernel)) (by decide)

end

end Verif.Props
