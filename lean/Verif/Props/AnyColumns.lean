import Verif.Props.AnyLimit
import Verif.Props.AlignSteps
import Verif.Props.AnyWidth
import Verif.Props.AnyFit

/-! # C51 and C78 for words of any runes -/

set_option linter.unusedSectionVars false

namespace Verif.Props
open Verif.Go Verif.Model Verif.Model.LB Verif.Spec Verif.Spec.Ansi Verif.Spec.LB Verif.Proofs Verif.Proofs.LB

section
variable {F : Type} [Arith F] [Laws F] {rt : Runtime} {env : Env} {dict : Dictionary} {opts : List (Opt F)}
  {text : List Rune → Int} {l l' : LineBreaker F} {seqs : List (List Rune)} {tokens : List (List Rune)}
  {tks : List (List Span)} {maxWidth : F} {W : Int} {lines : List (List Rune)}

/-- **C51** (partial, as C51_width_partial), for words of any runes and any history: no line shows a text that is wider than
requested, after scaling and rounding. -/
theorem C51_any_partial (c : AnyCall rt env dict opts text 1 l seqs tokens tks maxWidth W) (hW : 0 < W)
    (ho : (defaultOptions opts).renderHyphens = true → OwnPenalty (defaultOptions opts))
    (wd : Rune → Int) (hwd : SumOf text (textsOf tks) wd)
    (h : leftAlignUniform rt env l tokens maxWidth = .ok (some lines, l')) :
    ∃ shown, List.Forall₂ (Sprinkled (seqs ++ seqsOf tks)) shown lines ∧
      ∀ t ∈ shown, text t ≤ W ∧ ∀ r ∈ t, r = 0x20 ∨ r = 0x2D ∨ ∃ u ∈ textsOf tks, r ∈ u := by
  rcases any_exact c hW with ⟨_, l'', h1⟩ | ⟨_, ls, h1, lines', l'', H, h2, h3, h4⟩
  · rw [h1] at h; cases h
  · rw [h2] at h
    cases h
    have hsp := lossless (env := env) (dict := dict) c.sane
    have hspr := wrapped_sprinkled h3 h4 (by
      have e : parts (styledSyms (splitterOf env dict (defaultOptions opts)) tks) =
          (styledPieces (splitterOf env dict (defaultOptions opts)) tks).map Piece.text := by
        rw [styledSyms_eq, parts_syms, ← parPieces_text, ← styledPieces_eq]
      rw [layout_parts h1, List.drop_zero, ← e]
      exact List.prefix_rfl)
    have hc := texts_chars hsp tks
    refine ⟨_, hspr, fun t ht => ?_⟩
    obtain ⟨x, hx, rfl⟩ := List.mem_map.mp ht
    exact layout_widths c.sane hc (fun hb => styled_whole (splitterOf env dict (defaultOptions opts)) hb _) wd hwd
        (layout_hy (fun s hs => hyOf_own ho s hs) h1) x hx

end

section
variable {rt : Runtime} {env : Env} {dict : Dictionary} {l l' : LineBreaker F64} {seqs tokens : List (List Rune)} {W : Int}
  {lines : List (List Rune)} {maxWidth : F64} {q : Rat}
attribute [local irreducible] defaultText

/-- **C51** (partial: for integral widths), for words of any runes with the default options. -/
theorem C51_default_any_partial {F : Type} [Arith F] [Laws F] {l l' : LineBreaker F}
    (hu : AnyUsed env dict [] l seqs) (hw : Walks rt) (hd : AsciiDigits env) (h : OrdinaryAny env tokens W)
    (hW : 0 < W) (hr : leftAlignUniform rt env l tokens (Arith.ofInt W : F) = .ok (some lines, l')) :
    ∃ tks shown, List.Forall₂ (fun t xs => xs.flatMap Span.runes = t) tokens tks ∧
      List.Forall₂ (Sprinkled (seqs ++ seqsOf tks)) shown lines ∧
      ∀ t ∈ shown, ∃ w, widthsOf .init t [] = .ok w ∧ w ≤ W := by
  obtain ⟨tks, c, h2, hsum⟩ := any_default (rt := rt) (F := F) (l := l) hu hw hd h
  obtain ⟨shown, h3, h4⟩ := C51_any_partial c hW (fun _ => own_default) _ hsum hr
  refine ⟨tks, shown, h2, h3, fun t ht => ?_⟩
  have hv : ∀ r ∈ t, 0 ≤ r ∧ r ≤ 0x10FFFF := by
    intro r hr
    rcases (h4 t ht).2 r hr with rfl | rfl | ⟨u, hu, hr⟩
    · decide
    · decide
    · obtain ⟨t', g1, g2⟩ := texts_mem h2 u hu
      exact h.valid t' g1 r (g2 r hr)
  refine ⟨_, widthsOf_table .start t [] rfl hv, ?_⟩
  rw [← defaultText_sum t hv]
  exact (h4 t ht).1

/-- **C78**, for words of any runes with the default options: no line shows a text that is wider than the requested width by
more than half a column. -/
theorem C78_half_column_any (hu : AnyUsed env dict [] l seqs) (hw : Walks rt) (hd : AsciiDigits env)
    (h : OrdinaryAny env tokens W) (hx : IsValue maxWidth q) (hW : 0 < W) (h1 : (W : Rat) - 1 / 2 ≤ q) (h2 : q < W + 1 / 2)
    (hr : leftAlignUniform rt env l tokens maxWidth = .ok (some lines, l')) :
    ∃ tks shown, List.Forall₂ (fun t xs => xs.flatMap Span.runes = t) tokens tks ∧
      List.Forall₂ (Sprinkled (seqs ++ seqsOf tks)) shown lines ∧
      ∀ t ∈ shown, ∃ w, widthsOf .init t [] = .ok w ∧ (w : Rat) ≤ q + 1 / 2 := by
  have hs : l.scaleFactor = Arith.ofInt 1 := by
    rw [used_options hu]; rfl
  have hW2 : W ≤ 2 ^ 53 := by
    have := h.exact; have := defaultText_nonneg (List.intercalate [0x20] tokens); have := le_abs_self W; omega
  rw [C78_nearest tokens hs hx hW hW2 h1 h2] at hr
  obtain ⟨tks, shown, g1, g2, g3⟩ := C51_default_any_partial hu hw hd h hW hr
  refine ⟨tks, shown, g1, g2, fun t ht => ?_⟩
  obtain ⟨w, e1, e2⟩ := g3 t ht
  refine ⟨w, e1, ?_⟩
  have : (w : Rat) ≤ W := by exact_mod_cast e2
  linarith

end

/-! ## Cases -/

theorem spaced_runes {ts : List (List Rune)} {r : Rune} (h : r ∈ List.intercalate [0x20] ts) : r = 0x20 ∨ ∃ t ∈ ts, r ∈ t := by
  induction ts with
  | nil => simp at h
  | cons t ts ih =>
    cases ts with
    | nil => exact Or.inr ⟨t, by simp, by simpa [List.intercalate] using h⟩
    | cons u us =>
      rw [List.intercalate_cons_cons, List.mem_append, List.mem_append] at h
      rcases h with (h | h) | h
      · exact Or.inr ⟨t, by simp, h⟩
      · exact Or.inl (by simpa using h)
      · exact (ih h).imp_right (fun ⟨v, h1, h2⟩ => ⟨v, by simp [h1], h2⟩)

/-- The number 29.5. -/
def half59 : F64 :=
  .fin false (59 / 2) ⟨59, -1, by norm_num, by norm_num, by norm_num, by norm_num⟩ (fun _ => by norm_num)

theorem nestedPair_wide : OrdinaryAny Env.ascii nestedPair 30 :=
  { nestedPair_ordinary with exact := by rw [defaultText_sum _ (by decide +kernel)]; decide +kernel }

/-- The words of `nestedPair` are set in 29.5 columns, on lines of at most 30 columns. -/
theorem C78_half_column_any_case : ∃ lines l',
    leftAlignUniform forward Env.ascii (new Env.ascii (dictOf sampleLines) [] : LineBreaker F64) nestedPair half59 =
      .ok (some lines, l') ∧
    ∃ tks shown, List.Forall₂ (fun t xs => xs.flatMap Span.runes = t) nestedPair tks ∧
      List.Forall₂ (Sprinkled ([] ++ seqsOf tks)) shown lines ∧
      ∀ t ∈ shown, ∃ w, widthsOf .init t [] = .ok w ∧ (w : Rat) ≤ 59 / 2 + 1 / 2 := by
  have hx : IsValue half59 (59 / 2) := ⟨_, _, _, rfl⟩
  have hu : AnyUsed Env.ascii (dictOf sampleLines) [] (new Env.ascii (dictOf sampleLines) [] : LineBreaker F64) [] := .new
  obtain ⟨tks, c, h2, hsum⟩ := any_default (rt := forward) hu forward_walks digits_ascii nestedPair_wide
  have hfit : defaultText (List.intercalate [0x20] (textsOf tks)) ≤ 30 := by
    have h3 := texts_sum (fun r => plainWidth r % 4) (fun r => Int.emod_nonneg _ (by decide)) h2
    have h4 : ((List.intercalate [0x20] nestedPair).map (fun r => plainWidth r % 4)).sum ≤ 30 := by decide +kernel
    rw [hsum _ (fun r hr => ?_)]
    · omega
    · exact (spaced_runes hr).imp_right Or.inr
  obtain ⟨line, l', h, _⟩ := C55_any_text c (by decide) (by decide) (Laws.tenths_le _ _ (by decide)) _ hsum hfit
  have hr := (C78_nearest (rt := forward) (env := Env.ascii) (l := new Env.ascii (dictOf sampleLines) []) nestedPair rfl hx
    (W := 30) (by decide) (by decide) (by norm_num) (by norm_num)).trans h
  exact ⟨_, _, hr, C78_half_column_any hu forward_walks digits_ascii nestedPair_wide hx (by decide) (by norm_num) (by norm_num) hr⟩

local instance columnsLaws : Laws Rat := ratLaws (2 ^ 53) (le_refl _)

/-- The words of `boldPieces` on lines of seven columns. -/
theorem C51_any_case_partial : ∃ lines l', leftAlignUniform forward Env.ascii (demo [.wordBreak false]) (boldPieces.map runesOf)
      (Arith.ofInt 7 : Rat) = .ok (some lines, l') ∧
    ∃ shown, List.Forall₂ (Sprinkled ([] ++ seqsOf boldPieceSpans)) shown lines ∧ ∀ t ∈ shown, t.length ≤ 7 := by
  obtain ⟨lines, l', h⟩ := C69_any_case_partial
  obtain ⟨shown, h1, h2⟩ := C51_any_partial (boldPieces_call [.wordBreak false] sane_whole rfl 7 (by decide +kernel)) (by decide)
    (fun _ => ⟨by decide +kernel, by decide +kernel, by decide +kernel, by decide +kernel⟩) _ (sumOf_demo _) h
  refine ⟨lines, l', h, shown, h1, fun t ht => ?_⟩
  have h3 := (h2 t ht).1
  simp only [demoText] at h3
  omega

end Verif.Props
