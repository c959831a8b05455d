import Verif.Props.LimitExact
import Verif.Props.AnyWords
import Verif.Props.Float64Cases

/-! # C79 and C80 for words of any runes -/

set_option linter.unusedSectionVars false

namespace Verif.Props
open Verif.Go Verif.Model Verif.Model.LB Verif.Spec Verif.Spec.Ansi Verif.Spec.LB Verif.Proofs Verif.Proofs.LB

section
variable {rt : Runtime} {env : Env} {dict : Dictionary} {opts : List (Opt F64)} {text : List Rune → Int} {n : Nat}
  {l : LineBreaker F64} {seqs : List (List Rune)} {tokens : List (List Rune)} {tks : List (List Span)} {maxWidth : F64} {B : Int}

/-- Words of any runes, after any history, without a line of an acceptable width. -/
theorem refused_any {A : Int} (hu : AnyUsed env dict opts l seqs) (hs : Sane (defaultOptions opts) text n)
    (hf : List.Forall₂ (Found rt env) tokens tks) (h0 : tokens ≠ [])
    (hw : lineWidth (measureOf (defaultOptions opts) text) (styledSyms (splitterOf env dict (defaultOptions opts)) tks) +
      (measureOf (defaultOptions opts) text).hyphen ≤ B) (hB : B ≤ 2 ^ 53)
    (hA : A ≤ 0 ∨ ∃ t r, styledSyms (splitterOf env dict (defaultOptions opts)) tks = .part t :: r ∧ A ≤ text t)
    (hno : NoLine (defaultOptions opts) ((defaultOptions opts).scale maxWidth) A B) :
    ∃ l', leftAlignUniform rt env l tokens maxWidth = .ok (none, l') := by
  obtain ⟨H, hk, _⟩ := any_keeps hs hu
  have ho := hk.options
  have hsy : syms (parBlocks (splitterOf env dict (defaultOptions opts)) tks) =
      styledSyms (splitterOf env dict (defaultOptions opts)) tks := (styledSyms_eq _ _).symm
  exact ⟨_, align_refused (rt := rt) (hk.splits hs) (hk.setup hs) tokens _ (found_all hf) h0 H hk.list
    maxWidth B (by rw [hsy]; exact hw) hB A (by rw [hsy]; exact hA) (by rw [ho]; exact hno)⟩

/-- **C79** fails also for words of any runes, after any history: a width that exceeds that of the text by 1020000 or more is an
error. -/
theorem C79_too_wide_any_fails (hu : AnyUsed env dict opts l seqs) (hs : Sane (defaultOptions opts) text n)
    (hf : List.Forall₂ (Found rt env) tokens tks) (h0 : tokens ≠ [])
    (hw : lineWidth (measureOf (defaultOptions opts) text) (styledSyms (splitterOf env dict (defaultOptions opts)) tks) +
      (measureOf (defaultOptions opts) text).hyphen ≤ B) (hB0 : 0 ≤ B) (hB : B + 1020000 ≤ 2 ^ 53)
    (h1 : (defaultOptions opts).scaleFactor = Arith.ofInt 1) (hx : Above maxWidth ((B : Rat) + 1020001)) :
    ∃ l', leftAlignUniform rt env l tokens maxWidth = .ok (none, l') := by
  refine refused_any (A := 0) hu hs hf h0 hw (by omega) (Or.inl (le_refl _)) (noLine_above hs.tolerance hB ?_)
  rw [scale_one h1]
  have hi : |B + 1020000| ≤ 2 ^ 53 := by rw [abs_of_nonneg (by omega)]; exact hB
  rcases hx with rfl | ⟨q, ⟨s, k1, k2, rfl⟩, hq⟩
  · rw [F64.ofInt_eq hi]; rfl
  · show F64.le _ (F64.pack s (ratRound q)) = true
    rw [F64.ofInt_def]
    exact F64.pack_mono (ratRound_ge (by omega) (by push_cast; linarith)) _ _

/-- **C80.** Words of any runes, after any history: a width of at most minus half a column, or -Inf, is an error. -/
theorem C80_negative_any (hu : AnyUsed env dict opts l seqs) (hs : Sane (defaultOptions opts) text n)
    (hf : List.Forall₂ (Found rt env) tokens tks) (h0 : tokens ≠ [])
    (hw : lineWidth (measureOf (defaultOptions opts) text) (styledSyms (splitterOf env dict (defaultOptions opts)) tks) +
      (measureOf (defaultOptions opts) text).hyphen ≤ B) (hB : B ≤ 2 ^ 53)
    (h1 : (defaultOptions opts).scaleFactor = Arith.ofInt 1) (hx : maxWidth = .inf true ∨ ∃ q, IsValue maxWidth q ∧ q ≤ -1 / 2) :
    ∃ l', leftAlignUniform rt env l tokens maxWidth = .ok (none, l') := by
  refine refused_any (A := 0) hu hs hf h0 hw hB (Or.inl (le_refl _)) (noLine_below hs.tolerance (by norm_num) ?_ hB)
  rw [scale_one h1]
  rcases hx with rfl | ⟨q, ⟨s, k1, k2, rfl⟩, hq⟩
  · rw [F64.ofInt_eq (by norm_num)]; rfl
  · show F64.lt (F64.pack s (ratRound q)) _ = true
    have m := F64.pack_mono (show ratRound q ≤ ((-1 : Int) : Rat) by push_cast; exact ratRound_neg hq) s false
    refine F64.lt_of_le' m ?_
    rw [← F64.ofInt_def, F64.ofInt_eq (n := -1) (by norm_num), F64.ofInt_eq (n := 0) (by norm_num)]
    exact decide_eq_true (p := ((-1 : Int) : Rat) < ((0 : Int) : Rat)) (by norm_num)

/-- **C80.** Words of any runes, after any history: a width less than half a column is an error for a text whose first part has
a width. -/
theorem C80_below_half_any (hu : AnyUsed env dict opts l seqs) (hs : Sane (defaultOptions opts) text n)
    (hf : List.Forall₂ (Found rt env) tokens tks)
    (hw : lineWidth (measureOf (defaultOptions opts) text) (styledSyms (splitterOf env dict (defaultOptions opts)) tks) +
      (measureOf (defaultOptions opts) text).hyphen ≤ B) (hB : B ≤ 2 ^ 53)
    (h1 : (defaultOptions opts).scaleFactor = Arith.ofInt 1) (hx : Below maxWidth (1 / 2)) {t : List Rune} {r : List Sym}
    (hp : styledSyms (splitterOf env dict (defaultOptions opts)) tks = .part t :: r) (ht : 0 < text t) :
    ∃ l', leftAlignUniform rt env l tokens maxWidth = .ok (none, l') := by
  have h0 : tokens ≠ [] := by rintro rfl; cases hf; cases hp
  refine refused_any (A := 1) hu hs hf h0 hw hB (Or.inr ⟨t, r, hp, ht⟩) (noLine_below hs.tolerance (by norm_num) ?_ hB)
  rw [scale_one h1]
  rcases hx with rfl | ⟨q, ⟨s, k1, k2, rfl⟩, hq⟩
  · rw [F64.ofInt_eq (by norm_num)]; rfl
  · show F64.lt (F64.pack s (ratRound q)) _ = true
    have m := F64.pack_mono (show ratRound q ≤ ((0 : Int) : Rat) by push_cast; exact ratRound_nonpos hq) s false
    refine F64.lt_of_le' m ?_
    rw [← F64.ofInt_def, F64.ofInt_eq (n := 0) (by norm_num), F64.ofInt_eq (n := 1) (by norm_num)]
    exact decide_eq_true (p := ((0 : Int) : Rat) < ((1 : Int) : Rat)) (by norm_num)

/-- **C79** (as `C79_exact_partial`), for words of one text each, with any sequences, after any history: a text that fits on a
line of an integral width is set if and only if at most 86000 columns are left; otherwise it is refused. -/
theorem C79_exact_any_partial {W : Int} (c : AnyCall rt env dict [] defaultText 1 l seqs tokens tks (Arith.ofInt W : F64) W)
    (hW : 0 < W) (plain : List (List Rune)) (h : Ordinary plain W) (hone : fullTexts tks = plain.map (fun t => [t]))
    (ht : defaultText (List.intercalate [0x20] plain) ≤ W) :
    ((∃ lines l', leftAlignUniform rt env l tokens (Arith.ofInt W : F64) = .ok (some lines, l')) ↔
      W - defaultText (List.intercalate [0x20] plain) ≤ 86000) ∧
    ((∃ l', leftAlignUniform rt env l tokens (Arith.ofInt W : F64) = .ok (none, l')) ↔
      86000 < W - defaultText (List.intercalate [0x20] plain)) := by
  obtain ⟨c', h0, hne, e⟩ := alone_set c hW plain h.escapeFree hone
  have hf : plain.head? ≠ some [] := by
    obtain ⟨t, ts, rfl⟩ := List.exists_cons_of_ne_nil h0
    simpa using hne t (by simp)
  have k := C79_exact_partial (rt := rt) (dict := dict) .new c.walks c.digits h h0 hf hW ht
  have e' : (∃ l', leftAlignUniform rt env l tokens (Arith.ofInt W : F64) = .ok (none, l')) ↔
      ¬ ∃ lines l', leftAlignUniform rt env l tokens (Arith.ofInt W : F64) = .ok (some lines, l') := by
    rw [(C52_any c hW).1, (C52_any c hW).2]
  refine ⟨e.trans k.1, ?_⟩
  rw [e', e, k.1, not_le]

end

/-! ## Cases -/

theorem sane_unit64 : Sane (defaultOptions [unit64]) demoText 1 := by
  refine sane_unscaled rfl (fun t => rfl) (fun t => Int.natCast_nonneg _) rfl ?_ ?_ ?_ ?_ ?_ rfl rfl
  · exact (by decide : (1 : Int) ≤ 2 ^ 53).trans Laws.bound_large
  · exact within_int 300 10000 (by decide) (by decide) (by decide)
  · show Arith.eq (Arith.ofInt 300 : F64) _ = false
    rw [eq_small (F := F64) 300 10000 (by decide) (by decide)]; rfl
  · show Arith.eq (Arith.ofInt 300 : F64) _ = false
    rw [eq_small (F := F64) 300 (-10000) (by decide) (by decide)]; rfl
  · refine ⟨?_, ?_⟩
    · rw [← Laws.tenths_int 0]; exact Laws.tenths_le _ _ (by decide)
    · rw [← Laws.tenths_int 50]; exact Laws.tenths_le _ _ (by decide)

theorem pieceWords_width : defaultText (List.intercalate [0x20] (pieceWords.map runesOf)) = 22 := by
  rw [defaultText_sum _ (by decide +kernel)]; decide +kernel

theorem pieceWords_ordinary {W : Int} (h : |W| ≤ 1000000) : Ordinary (pieceWords.map runesOf) W :=
  ⟨by decide +kernel, pieceWords_free, by rw [pieceWords_width]; omega⟩

theorem boldPieces_default {W : Int} (h : |W| ≤ 1000000) :
    AnyCall forward Env.ascii (dictOf sampleLines) [] defaultText 1 (new Env.ascii (dictOf sampleLines) []) [] (boldPieces.map runesOf)
      boldPieceSpans (Arith.ofInt W : F64) W := by
  have c := call_default (F := F64) (l := new Env.ascii (dictOf sampleLines) []) .new forward_walks digits_ascii (pieceWords_ordinary h)
  refine ⟨.new, c.sane, forward_walks, digits_ascii, boldPieces_found,
    ⟨_, rfl, ⟨runesOf "\x1b[1m", runesOf "aabbdcc", runesOf "\x1b[0m"⟩, by simp, by decide⟩, c.scaled, ?_⟩
  rw [(alone_syms (lossless (env := Env.ascii) (dict := dictOf sampleLines) c.sane) boldPieces_alone).1]
  exact c.exact

/-- The words of `boldPieces`, of 22 columns, are set in lines of up to 86022 columns. -/
theorem C79_exact_any_case_partial :
    (∃ lines l', leftAlignUniform forward Env.ascii (new Env.ascii (dictOf sampleLines) []) (boldPieces.map runesOf)
      (Arith.ofInt 86022 : F64) = .ok (some lines, l')) ∧
    ∃ l', leftAlignUniform forward Env.ascii (new Env.ascii (dictOf sampleLines) []) (boldPieces.map runesOf)
      (Arith.ofInt 86023 : F64) = .ok (none, l') := by
  constructor
  · exact (C79_exact_any_partial (boldPieces_default (by decide)) (by decide) _ (pieceWords_ordinary (by decide)) boldPieces_alone
      (by rw [pieceWords_width]; decide)).1.mpr (by rw [pieceWords_width]; decide)
  · exact (C79_exact_any_partial (boldPieces_default (by decide)) (by decide) _ (pieceWords_ordinary (by decide)) boldPieces_alone
      (by rw [pieceWords_width]; decide)).2.mpr (by rw [pieceWords_width]; decide)

/-- The words of `boldPieces` in lines without limit. -/
theorem C79_too_wide_any_case : ∃ l', leftAlignUniform forward Env.ascii (demo64 []) (boldPieces.map runesOf) (.inf false) = .ok (none, l') :=
  C79_too_wide_any_fails (B := 23) .new sane_unit64 boldPieces_found (by decide) (by decide +kernel) (by decide) (by decide) rfl
    (Or.inl rfl)

theorem C80_negative_any_case : ∃ l', leftAlignUniform forward Env.ascii (demo64 []) (boldPieces.map runesOf) (.inf true) = .ok (none, l') :=
  C80_negative_any (B := 23) .new sane_unit64 boldPieces_found (by decide) (by decide +kernel) (by decide) rfl (Or.inl rfl)

theorem C80_below_half_any_case : ∃ l', leftAlignUniform forward Env.ascii (demo64 []) (boldPieces.map runesOf) (F64.zero false) =
    .ok (none, l') := by
  have e : styledSyms (splitterOf Env.ascii (dictOf sampleLines) (defaultOptions [unit64])) boldPieceSpans = .part (runesOf "aa") ::
      (styledSyms (splitterOf Env.ascii (dictOf sampleLines) (defaultOptions [unit64])) boldPieceSpans).tail := by decide +kernel
  exact C80_below_half_any (B := 23) .new sane_unit64 boldPieces_found (by decide +kernel) (by decide) rfl
    (Or.inr ⟨0, ⟨_, _, _, rfl⟩, by norm_num⟩) e (by decide +kernel)

end Verif.Props
