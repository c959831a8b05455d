import Verif.Props.Scale
import Verif.Props.AnyWords

/-! # C103 for words of any runes -/

set_option linter.unusedSectionVars false

namespace Verif.Props
open Verif.Go Verif.Model Verif.Model.LB Verif.Spec Verif.Spec.Ansi Verif.Spec.LB Verif.Proofs Verif.Proofs.LB

section
variable {F : Type} [Arith F] [Laws F] {rt rt' : Runtime} {env : Env} {dict : Dictionary} {opts : List (Opt F)}
  {text : List Rune → Int} {n n' : Nat} {l l₂ : LineBreaker F} {seqs seqs₂ : List (List Rune)} {tokens tokens₂ : List (List Rune)}
  {tks tks₂ : List (List Span)} {maxWidth : F} {W k : Int}

/-- **C103** (partial, as `C103_finer_partial`). Words of any runes with the same texts, after any histories: if they are set in
a finer unit, they are set in the coarser one. -/
theorem C103_finer_any_partial (f : F) (c : AnyCall rt env dict opts text n l seqs tokens tks maxWidth W)
    (c' : AnyCall rt' env dict (opts ++ [.scaleFactor f]) (fun t => k * text t) n' l₂ seqs₂ tokens₂ tks₂ maxWidth (k * W))
    (hk : 0 < k) (hW : 0 < W) (ht : fullTexts tks₂ = fullTexts tks)
    (h : ∃ lines l', leftAlignUniform rt' env l₂ tokens₂ maxWidth = .ok (some lines, l')) :
    ∃ lines l', leftAlignUniform rt env l tokens maxWidth = .ok (some lines, l') := by
  obtain ⟨e1, e2⟩ := scaled_options (env := env) (dict := dict) (opts := opts) f [] (Or.inl rfl)
  have hl := lossless (env := env) (dict := dict) c.sane
  have e3 : styledSyms (splitterOf env dict (defaultOptions opts)) tks₂ = styledSyms (splitterOf env dict (defaultOptions opts)) tks := by
    rw [styledSyms_eq, fullTexts_blocks hl ht, ← styledSyms_eq]
  have h1 := (C52_any c' (Int.mul_pos hk hW)).1.mp h
  have hb := c'.exact
  rw [e1, e2, e3] at hb h1
  exact (C52_any c hW).1.mpr (finer_set f c.sane hk (finer_bound c.sane hk hb) h1)

/-- **C103** (partial, as `C103_tolerance_partial`). Words of any runes with the same texts, after any histories: if the tolerance
is changed with the unit, both are set or none. -/
theorem C103_tolerance_any_partial (f y : F) (c : AnyCall rt env dict opts text n l seqs tokens tks maxWidth W)
    (c' : AnyCall rt' env dict (opts ++ [.scaleFactor f, .tolerance y]) (fun t => k * text t) n' l₂ seqs₂ tokens₂ tks₂ maxWidth (k * W))
    (hk : 0 < k) (hW : 0 < W) (ht : fullTexts tks₂ = fullTexts tks)
    (hy : ∀ d s, 0 < d → d ≤ W → 0 < s → s ≤ 10000 →
      (Arith.le (Arith.div (Arith.ofInt (k * d)) (Arith.ofInt s : F)) y = true ↔
        Arith.le (Arith.div (Arith.ofInt d) (Arith.ofInt s : F)) (defaultOptions opts).tolerance = true)) :
    (∃ lines l', leftAlignUniform rt' env l₂ tokens₂ maxWidth = .ok (some lines, l')) ↔
      ∃ lines l', leftAlignUniform rt env l tokens maxWidth = .ok (some lines, l') := by
  obtain ⟨e1, e2⟩ := scaled_options (env := env) (dict := dict) (opts := opts) f [.tolerance y] (Or.inr ⟨y, rfl⟩)
  have hl := lossless (env := env) (dict := dict) c.sane
  have e3 : styledSyms (splitterOf env dict (defaultOptions opts)) tks₂ = styledSyms (splitterOf env dict (defaultOptions opts)) tks := by
    rw [styledSyms_eq, fullTexts_blocks hl ht, ← styledSyms_eq]
  rw [(C52_any c' (Int.mul_pos hk hW)).1, (C52_any c hW).1, e1, e2, e3]
  exact tolerance_set f y c.sane hk hy

end

/-! ## Cases -/

local instance anyScaleLaws : Laws Rat := ratLaws (2 ^ 53) (le_refl _)

theorem boldPieces_scaled (more : List (Opt Rat)) (hm : more = [] ∨ ∃ y, more = [.tolerance y] ∧ Within y 50)
    (hx : lineWidth (measureOf (defaultOptions ([unit, .wordBreak false] ++ .scaleFactor 3 :: more)) fun t => 3 * demoText t)
      (styledSyms (splitterOf Env.ascii (dictOf sampleLines) (defaultOptions ([unit, .wordBreak false] ++ .scaleFactor 3 :: more)))
        boldPieceSpans) +
      (measureOf (defaultOptions ([unit, .wordBreak false] ++ .scaleFactor 3 :: more)) fun t => 3 * demoText t).hyphen + |3 * 7| ≤ 2 ^ 53) :
    AnyCall forward Env.ascii (dictOf sampleLines) ([unit, .wordBreak false] ++ .scaleFactor 3 :: more)
      (fun t => 3 * demoText t) 1 (demo ([.wordBreak false] ++ .scaleFactor 3 :: more)) [] (boldPieces.map runesOf) boldPieceSpans
      (Arith.ofInt 7 : Rat) (3 * 7) := by
  refine ⟨.new, sane_scaled 3 (by decide) (by decide) more hm, forward_walks, digits_ascii, boldPieces_found,
    ⟨_, rfl, ⟨runesOf "\x1b[1m", runesOf "aabbdcc", runesOf "\x1b[0m"⟩, by simp, by decide⟩, ?_, hx⟩
  have e : (defaultOptions ([unit, .wordBreak false] ++ .scaleFactor (3 : Rat) :: more)).scaleFactor = 3 := by
    rcases hm with rfl | ⟨y, rfl, hy⟩ <;> simp [defaultOptions, Opt.apply]
  show ratRound (((7 : Int) : Rat) * _) = ((3 * 7 : Int) : Rat)
  rw [e, ← ratRound_int (3 * 7)]
  congr 1
  norm_num

theorem boldPieces_finer : ∃ lines l', leftAlignUniform forward Env.ascii (demo [.wordBreak false, .scaleFactor 3])
    (boldPieces.map runesOf) (Arith.ofInt 7 : Rat) = .ok (some lines, l') :=
  ⟨_, linesOf_ok (r := some (["\x1b[1maabbdcc\x1b[0m", "zz", "aabbdcc", "zzz\x1b[0m\x1b[0m\x1b[0m"].map runesOf)) (by decide +kernel)⟩

theorem C103_finer_any_case_partial :
    ∃ lines l', leftAlignUniform forward Env.ascii (demo [.wordBreak false]) (boldPieces.map runesOf)
      (Arith.ofInt 7 : Rat) = .ok (some lines, l') :=
  C103_finer_any_partial (opts := [unit, .wordBreak false]) 3 (boldPieces_call [.wordBreak false] sane_whole rfl 7 (by decide +kernel))
    (boldPieces_scaled [] (Or.inl rfl) (by decide +kernel)) (by decide) (by decide) rfl boldPieces_finer

theorem C103_tolerance_any_case_partial :
    (∃ lines l', leftAlignUniform forward Env.ascii (demo [.wordBreak false, .scaleFactor 3, .tolerance (129 / 5)])
      (boldPieces.map runesOf) (Arith.ofInt 7 : Rat) = .ok (some lines, l')) ↔
    ∃ lines l', leftAlignUniform forward Env.ascii (demo [.wordBreak false]) (boldPieces.map runesOf)
      (Arith.ofInt 7 : Rat) = .ok (some lines, l') := by
  refine C103_tolerance_any_partial (opts := [unit, .wordBreak false]) 3 (129 / 5)
    (boldPieces_call [.wordBreak false] sane_whole rfl 7 (by decide +kernel))
    (boldPieces_scaled [.tolerance (129 / 5)] (Or.inr ⟨_, rfl, ⟨by decide +kernel, by decide +kernel⟩⟩) (by decide +kernel))
    (by decide) (by decide) rfl ?_
  intro d s _ _ hs _
  show decide ((((3 * d : Int) : Rat) / (s : Rat)) ≤ 129 / 5) = true ↔ decide (((d : Rat) / (s : Rat)) ≤ (86 : Int) / 10) = true
  have : (0 : Rat) < s := by exact_mod_cast hs
  rw [decide_eq_true_iff, decide_eq_true_iff, div_le_iff₀ this, div_le_iff₀ this]
  push_cast
  constructor <;> intro h <;> linarith

end Verif.Props
