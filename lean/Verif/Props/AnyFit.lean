import Verif.Props.AnyBreaks
import Verif.Props.Ragged

/-! # C52, C55, C97 and C98: words of any runes -/

set_option linter.unusedSectionVars false

namespace Verif.Props
open Verif.Go Verif.Model Verif.Model.LB Verif.Spec Verif.Spec.Ansi Verif.Spec.LB Verif.Proofs Verif.Proofs.LB

section
variable {F : Type} [Arith F] [Laws F] {rt rt' : Runtime} {env : Env} {dict : Dictionary} {opts : List (Opt F)}
  {text : List Rune → Int} {n : Nat} {l l' l₂ : LineBreaker F} {seqs seqs₂ : List (List Rune)} {tokens : List (List Rune)}
  {tks : List (List Span)} {maxWidth : F} {W : Int} {lines : List (List Rune)}

theorem texts_chars {sp : Splitter} (hl : sp.Lossless) (tks : List (List Span)) : chars (styledSyms sp tks) = joined (textsOf tks) := by
  have hfull : ∀ t ∈ tks.map full, ∀ x ∈ t, x.text ≠ [] := by
    intro t ht
    obtain ⟨xs, hxs, rfl⟩ := List.mem_map.mp ht
    exact full_text xs
  rw [← full_styled hl, styled_chars hl _ hfull, List.map_map]
  exact congrArg joined (List.map_congr_left (fun xs _ => full_flat xs))

theorem any_bound (c : AnyCall rt env dict opts text n l seqs tokens tks maxWidth W) : W ≤ Laws.bound F := by
  have h1 := c.exact
  have h2 := lineWidth_nonneg (setup_new (env := env) (dict := dict) c.sane)
    (styledSyms (splitterOf env dict (defaultOptions opts)) tks)
  have h3 := (measure_hyphen c.sane).1
  have := le_abs_self W
  omega

/-- **C52**, for words of any runes: after any history, a paragraph is set if and only if the texts of its words have an
acceptable setting; otherwise the result is ErrCannotBeSet. -/
theorem C52_any (c : AnyCall rt env dict opts text n l seqs tokens tks maxWidth W) (hW : 0 < W) :
    ((∃ lines l', leftAlignUniform rt env l tokens maxWidth = .ok (some lines, l')) ↔
      Settable (measureOf (defaultOptions opts) text) W (Tolerated (defaultOptions opts))
        (styledSyms (splitterOf env dict (defaultOptions opts)) tks)) ∧
    ((∃ l', leftAlignUniform rt env l tokens maxWidth = .ok (none, l')) ↔
      ¬ Settable (measureOf (defaultOptions opts) text) W (Tolerated (defaultOptions opts))
        (styledSyms (splitterOf env dict (defaultOptions opts)) tks)) := by
  rcases any_exact c hW with ⟨h1, l'', h2⟩ | ⟨h1, _, _, lines', l'', _, h2, _⟩
  · rw [h2]
    refine ⟨⟨?_, fun h => absurd h h1⟩, ⟨fun _ => h1, fun _ => ⟨_, rfl⟩⟩⟩
    rintro ⟨_, _, h⟩; cases h
  · rw [h2]
    refine ⟨⟨fun _ => h1, fun _ => ⟨_, _, rfl⟩⟩, ⟨?_, fun h => absurd h1 h⟩⟩
    rintro ⟨_, h⟩; cases h

/-- **C58**, for the existence of a result, for words of any runes: whether a paragraph is set depends neither on the walk of
the map, nor on earlier calls, nor on the sequences in the words. -/
theorem C58_success_any_partial {tokens₂ : List (List Rune)} {tks₂ : List (List Span)}
    (c : AnyCall rt env dict opts text n l seqs tokens tks maxWidth W)
    (c' : AnyCall rt' env dict opts text n l₂ seqs₂ tokens₂ tks₂ maxWidth W) (hW : 0 < W) (ht : fullTexts tks₂ = fullTexts tks) :
    ((∃ lines l', leftAlignUniform rt env l tokens maxWidth = .ok (some lines, l')) ↔
      ∃ lines l', leftAlignUniform rt' env l₂ tokens₂ maxWidth = .ok (some lines, l')) ∧
    ((∃ l', leftAlignUniform rt env l tokens maxWidth = .ok (none, l')) ↔
      ∃ l', leftAlignUniform rt' env l₂ tokens₂ maxWidth = .ok (none, l')) := by
  have e : styledSyms (splitterOf env dict (defaultOptions opts)) tks₂ = styledSyms (splitterOf env dict (defaultOptions opts)) tks := by
    rw [styledSyms_eq, styledSyms_eq, fullTexts_blocks (lossless (env := env) (dict := dict) c.sane) ht]
  have h2 := C52_any c' hW
  rw [e] at h2
  exact ⟨(C52_any c hW).1.trans h2.1.symm, (C52_any c hW).2.trans h2.2.symm⟩

/-! ## C55 -/

/-- A paragraph of any words that is acceptable on one line. -/
theorem any_one_line (c : AnyCall rt env dict opts text n l seqs tokens tks maxWidth W) (hpos : 0 < W) (hn : W ≤ 4997)
    (ha : Acceptable (measureOf (defaultOptions opts) text) W (okRatio (defaultOptions opts)) true
      (styledSyms (splitterOf env dict (defaultOptions opts)) tks) none) :
    ∃ line l', leftAlignUniform rt env l tokens maxWidth = .ok (some [line], l') ∧
      Sprinkled (seqs ++ seqsOf tks) (List.intercalate (List.replicate n 0x20) (textsOf tks)) line := by
  obtain ⟨H, hk, hH⟩ := any_keeps c.sane c.used
  have ho := hk.options
  have hu : Usual l.toOptions := ho ▸ usual_new c.sane
  have hok : okRatio l.toOptions = okRatio (defaultOptions opts) := by rw [ho]; rfl
  have hsy : syms (parBlocks (splitterOf env dict (defaultOptions opts)) tks) =
      styledSyms (splitterOf env dict (defaultOptions opts)) tks := (styledSyms_eq _ _).symm
  have hne : tokens ≠ [] := by
    rintro rfl
    obtain ⟨xs, h1, _⟩ := c.first
    have := c.found
    cases this
    cases h1
  have := align_exact_all (rt := rt) c.walks (hk.splits c.sane) (hk.setup c.sane) _ _ (found_all c.found) hne H hk.list
    maxWidth W (by rw [ho]; exact c.scaled) hpos (List.replicate n 0x20) (by rw [ho]; exact pads_new c.sane) hu.tol
    (hu.tame (hk.setup c.sane)) (by rw [hsy]; exact any_starts c) (by rw [hsy]; exact c.exact)
  rw [hsy, hok] at this
  rcases this with ⟨h1, _⟩ | ⟨_, segs, ls, h2, h3, h4, h5, h6, h7, _⟩
  · exact absurd ⟨_, Layout.last _ (any_starts c) ha⟩ h1
  · have hbt : ∀ x ∈ segs.flatten, BoxTag x := fun x hx => boxTag_par _ _ _ _ x (h5 x hx)
    have hst : ∀ x ∈ ls, StartsWithPart x.body := layout_bodies h2
    have hP : parPieces (splitterOf env dict (defaultOptions opts)) tks =
      styledPieces (splitterOf env dict (defaultOptions opts)) tks := (styledPieces_eq _ _).symm
    have h6' := h6 _ _ (found_all c.found) hne rfl
    rw [hP] at h6'
    have hbx : boxes segs.flatten = numbered l (measureOf (defaultOptions opts) text) H.length
        ((styledPieces (splitterOf env dict (defaultOptions opts)) tks).map Piece.text) := by
      rw [h4, boxes_parNodes, ← hP, parPieces_text]
    have hw := renderSegs_wrapped segs ls h3 hst hbt 0
      (AState.iterator (lv 0 (H ++ styledPieces (splitterOf env dict (defaultOptions opts)) tks))) (by simpa using hbx)
      (H := H) (g := List.replicate n 0x20)
    have hsh := any_shown (seqs := seqs) c.sane rfl h2 (by
      intro p hp
      rcases List.mem_append.mp hp with hp | hp
      · have := hH p hp
        exact ⟨this.1.imp_right (fun h => by simp [h]), this.2.imp_right (fun h => by simp [h])⟩
      · have := styledPieces_seqs _ _ p hp
        exact ⟨this.1.imp_right (fun h => by simp [h]), this.2.imp_right (fun h => by simp [h])⟩) hw
    rw [layout_one h2 (h7 hn ha)] at hsh
    simp only [List.map_cons, List.map_nil, Line.text, List.append_nil,
      lineText_of_chars (texts_chars (lossless (env := env) (dict := dict) c.sane) tks)] at hsh
    have key : ∀ out, List.Forall₂ (Sprinkled (seqs ++ seqsOf tks)) [List.intercalate (List.replicate n 0x20) (textsOf tks)] out →
        ∃ line, out = [line] ∧ Sprinkled (seqs ++ seqsOf tks) (List.intercalate (List.replicate n 0x20) (textsOf tks)) line := by
      intro out h
      cases h with
      | cons a b => cases b; exact ⟨_, rfl, a⟩
    obtain ⟨line, e, hline⟩ := key _ hsh
    rw [e] at h6'
    exact ⟨line, _, h6', hline⟩

/-- **C55**, for words of any runes: after any history, a paragraph with a text that fits is set on one line, in widths up
to 4997 with a tolerance of at least one half; the line is the text with sequences of the words and of earlier ones
inserted. -/
theorem C55_any (c : AnyCall rt env dict opts text n l seqs tokens tks maxWidth W) (hW : 0 < W) (hnarrow : W ≤ 4997)
    (ht : Arith.le (Arith.tenths 5) (defaultOptions opts).tolerance = true)
    (hfit : lineWidth (measureOf (defaultOptions opts) text) (styledSyms (splitterOf env dict (defaultOptions opts)) tks) ≤ W) :
    ∃ line l', leftAlignUniform rt env l tokens maxWidth = .ok (some [line], l') ∧
      Sprinkled (seqs ++ seqsOf tks) (List.intercalate (List.replicate n 0x20) (textsOf tks)) line := by
  refine any_one_line c hW hnarrow ?_
  have hnn : 0 ≤ lineWidth (measureOf (defaultOptions opts) text) (styledSyms (splitterOf env dict (defaultOptions opts)) tks) :=
    lineWidth_nonneg (setup_new (env := env) (dict := dict) c.sane) _
  unfold Acceptable
  simp only [endWidth, lineStretch, if_true, add_zero, sub_zero]
  rcases eq_or_lt_of_le hfit with e | e
  · exact Or.inl e
  · refine Or.inr ⟨e, by decide, ?_⟩
    refine Laws.le_trans _ _ _ (Laws.div_half _ _ (by omega) (by decide) ?_ (by omega)) ht
    exact _root_.le_trans (by decide) (Laws.bound_large (F := F))

/-- **C55**, for words of any runes, in terms of the text, when widths are sums of widths of runes. -/
theorem C55_any_text (c : AnyCall rt env dict opts text 1 l seqs tokens tks maxWidth W) (hW : 0 < W) (hnarrow : W ≤ 4997)
    (ht : Arith.le (Arith.tenths 5) (defaultOptions opts).tolerance = true) (wd : Rune → Int) (hwd : SumOf text (textsOf tks) wd)
    (hfit : text (List.intercalate [0x20] (textsOf tks)) ≤ W) :
    ∃ line l', leftAlignUniform rt env l tokens maxWidth = .ok (some [line], l') ∧
      Sprinkled (seqs ++ seqsOf tks) (List.intercalate [0x20] (textsOf tks)) line := by
  refine C55_any c hW hnarrow ht ?_
  have hc := texts_chars (lossless (env := env) (dict := dict) c.sane) tks
  obtain ⟨t1, t2⟩ := text_syms hc hwd (measureOf (defaultOptions opts) text) rfl rfl _ (fun _ h => h)
  rw [← t2, ← hwd _ t1, lineText_of_chars hc]
  exact hfit

/-! ## C97 -/

/-- **C97**, for words of any runes: after any history, every line but the last shows a text that leaves at most `B` columns
free, when a space of `B + 1` columns would exceed the tolerance. -/
theorem C97_any (c : AnyCall rt env dict opts text 1 l seqs tokens tks maxWidth W) (hW : 0 < W)
    (ho : (defaultOptions opts).renderHyphens = true → OwnPenalty (defaultOptions opts))
    (wd : Rune → Int) (hwd : SumOf text (textsOf tks) wd) (B : Int) (hB0 : 0 ≤ B)
    (hB : Arith.le (Arith.div (Arith.ofInt (B + 1)) (Arith.ofInt 6)) (defaultOptions opts).tolerance = false)
    (h : leftAlignUniform rt env l tokens maxWidth = .ok (some lines, l')) :
    ∃ shown, List.Forall₂ (Sprinkled (seqs ++ seqsOf tks)) shown lines ∧ (∀ t ∈ shown.dropLast, W - B ≤ text t) ∧
      ((lines.length : Int) - 1) * (W - B - text [0x2D]) ≤ text (List.intercalate [0x20] (textsOf tks)) := by
  rcases any_exact c hW with ⟨_, l'', h1⟩ | ⟨_, ls, h1, lines', l'', H, h2, h3, h4⟩
  · rw [h1] at h; cases h
  · rw [h2] at h
    cases h
    have hl := lossless (env := env) (dict := dict) c.sane
    have hc := texts_chars hl tks
    have hsh := any_shown c.sane rfl h1 h3 h4
    refine ⟨_, hsh, ?_, ?_⟩
    · intro line hline
      rw [← List.map_dropLast] at hline
      obtain ⟨x, hx, rfl⟩ := List.mem_map.mp hline
      obtain ⟨g1, f, s, g2, g3, g4, g5⟩ := layout_inner (layout_hy (fun s hs => hyOf_own ho s hs) h1) x hx
      have := text_inside hc (styled_whole (splitterOf env dict (defaultOptions opts)) · tks) hwd g1 g3 g5
      have h2 := space_inside env dict c.sane (any_bound c) hB hB0 g2
      show W - B ≤ text (Line.text [0x20] x)
      omega
    · have htot := layout_count env dict c.sane (any_bound c) hB0 hB h1
      obtain ⟨t1, t2⟩ := text_syms hc hwd (measureOf (defaultOptions opts) text) rfl rfl _ (fun _ h => h)
      rw [← t2, ← hwd _ t1, lineText_of_chars hc] at htot
      have := hsh.length_eq
      rw [List.length_map] at this
      rw [← this]
      exact htot

/-! ## C98 -/

theorem joined_ends (ts : List (List Rune)) (h0 : ts ≠ []) (h : ∀ t ∈ ts.getLast?, t ≠ []) :
    ∃ r, (joined ts).getLast? = some (Ch.rune r) := by
  induction ts with
  | nil => exact absurd rfl h0
  | cons t ts ih =>
    cases ts with
    | nil =>
      have ht : t ≠ [] := h t rfl
      refine ⟨t.getLast ht, ?_⟩
      rw [joined, List.getLast?_map, List.getLast?_eq_some_getLast ht]
      rfl
    | cons u us =>
      obtain ⟨r, hr⟩ := ih (by simp) (by simpa using h)
      refine ⟨r, ?_⟩
      rw [joined, List.getLast?_append, List.getLast?_cons, hr]
      · rfl
      · simp

/-- There is a part of a word after each space, when the last word has some text. -/
theorem gap_part {sp : Splitter} (hl : sp.Lossless) (tks : List (List Span)) (h : ∀ t ∈ (textsOf tks).getLast?, t ≠ [])
    (u v : List Sym) (e : styledSyms sp tks = u ++ .gap :: v) : ∃ t, .part t ∈ v := by
  have h0 : tks ≠ [] := by
    rintro rfl
    have := congrArg List.length e
    simp [styledSyms] at this
  have hc := texts_chars hl tks
  obtain ⟨r, hr⟩ := joined_ends (textsOf tks) (by simpa [textsOf] using h0) h
  rw [← hc, e] at hr
  by_contra hv
  have hg : ∀ x ∈ chars (.gap :: v), x = Ch.gap := by
    intro x hx
    unfold chars at hx
    obtain ⟨s, hs, hx⟩ := List.mem_flatMap.mp hx
    cases s with
    | part t =>
      rcases List.mem_cons.mp hs with hs | hs
      · cases hs
      · exact absurd ⟨t, hs⟩ hv
    | gap => simpa [symCh] using hx
    | _ => simp [symCh] at hx
  rw [chars_append] at hr
  have hne : chars (.gap :: v) ≠ [] := by simp [chars, symCh]
  rw [List.getLast?_append_of_ne_nil _ hne] at hr
  have := hg _ (List.mem_of_getLast? hr)
  cases this

theorem styled_append (sp : Splitter) (a b : List (List Span)) (ha : a ≠ []) (hb : b ≠ []) :
    styledSyms sp (a ++ b) = styledSyms sp a ++ .gap :: styledSyms sp b := by
  induction a with
  | nil => exact absurd rfl ha
  | cons t a ih =>
    cases a with
    | nil =>
      obtain ⟨u, us, rfl⟩ := List.exists_cons_of_ne_nil hb
      rfl
    | cons v vs =>
      have := ih (by simp)
      simp only [List.cons_append, styledSyms] at this ⊢
      rw [this]
      simp

/-- **C98**, for words of any runes: a paragraph that is set is still set without its last words, with any other line
breaker with the same options, when the last word that is left has some text. -/
theorem C98_any {toks : List (List Rune)} {kept removed : List (List Span)}
    (c : AnyCall rt env dict opts text n l seqs tokens (kept ++ removed) maxWidth W)
    (c' : AnyCall rt' env dict opts text n l₂ seqs₂ toks kept maxWidth W) (hW : 0 < W)
    (hlast : ∀ t ∈ (textsOf kept).getLast?, t ≠ [])
    (τ : Int) (hτ : Arith.le (Arith.tenths τ) (defaultOptions opts).tolerance = true) (hn : 10 * W ≤ 9994 * τ)
    (h : ∃ lines l', leftAlignUniform rt env l tokens maxWidth = .ok (some lines, l')) :
    ∃ lines l', leftAlignUniform rt' env l₂ toks maxWidth = .ok (some lines, l') := by
  have hl := lossless (env := env) (dict := dict) c.sane
  have hset := (C52_any c hW).1.mp h
  refine (C52_any c' hW).1.mpr ?_
  by_cases hr : removed = []
  · subst hr
    rw [List.append_nil] at hset
    exact hset
  have h0 : kept ≠ [] := by
    rintro rfl
    obtain ⟨_, h, _⟩ := c'.first
    cases h
  obtain ⟨ls, hls⟩ := hset
  have hb := any_bound c
  have hbig : (10000 : Int) ≤ Laws.bound F := _root_.le_trans (by decide) (Laws.bound_large (F := F))
  refine layout_prefix (lineWidth_nonneg (setup_new (env := env) (dict := dict) c.sane)) (measure_hyphen c.sane).1 ?_ hls _ _ _
    (styled_append _ kept removed h0 hr) (any_starts c') (gap_part hl kept hlast)
  intro d s h1 h2 hs
  refine Laws.le_trans _ _ _ (Laws.div_tenths _ _ τ (by omega) (by omega) ?_ ?_ ?_) hτ
  · rcases hs with rfl | rfl <;> decide
  · rcases hs with rfl | rfl <;> omega
  · rcases hs with rfl | rfl <;> omega

/-! ## The default options -/

/-- **C55**, for words of any runes, with the default options: a paragraph with a text that fits is set on one line. -/
theorem C55_default_any (hu : AnyUsed env dict [] l seqs) (hw : Walks rt) (hd : AsciiDigits env) (h : OrdinaryAny env tokens W)
    (hW : 0 < W) (hnarrow : W ≤ 4997) :
    ∃ tks, List.Forall₂ (fun t xs => xs.flatMap Span.runes = t) tokens tks ∧
      (defaultText (List.intercalate [0x20] (textsOf tks)) ≤ W →
        ∃ line l', leftAlignUniform rt env l tokens (Arith.ofInt W : F) = .ok (some [line], l') ∧
          Sprinkled (seqs ++ seqsOf tks) (List.intercalate [0x20] (textsOf tks)) line) := by
  obtain ⟨tks, c, h2, hsum⟩ := any_default (rt := rt) (F := F) (l := l) hu hw hd h
  exact ⟨tks, h2, fun hfit => C55_any_text c hW hnarrow (Laws.tenths_le _ _ (by decide)) _ hsum hfit⟩

/-- **C97**, for words of any runes, with the default options in float64: every line but the last shows a text that leaves
at most 51 columns free, and all lines but one show at least `W - 52` columns of the text. -/
theorem C97_default_any {l l' : LineBreaker F64} (hu : AnyUsed env dict [] l seqs) (hw : Walks rt) (hd : AsciiDigits env)
    (h : OrdinaryAny env tokens W) (hW : 0 < W)
    (hr : leftAlignUniform rt env l tokens (Arith.ofInt W : F64) = .ok (some lines, l')) :
    ∃ tks shown, List.Forall₂ (fun t xs => xs.flatMap Span.runes = t) tokens tks ∧
      List.Forall₂ (Sprinkled (seqs ++ seqsOf tks)) shown lines ∧ (∀ t ∈ shown.dropLast, W - 51 ≤ defaultText t) ∧
      ((lines.length : Int) - 1) * (W - 52) ≤ defaultText (List.intercalate [0x20] (textsOf tks)) := by
  obtain ⟨tks, c, h2, hsum⟩ := any_default (rt := rt) (F := F64) (l := l) hu hw hd h
  obtain ⟨shown, h3, h4, h5⟩ := C97_any c hW (fun _ => own_default) _ hsum 51 (by decide) space_64 hr
  refine ⟨tks, shown, h2, h3, h4, ?_⟩
  rw [defaultText_hyphen] at h5
  have e : W - 52 = W - 51 - 1 := by omega
  rw [e]
  exact h5

end

/-! ## Cases -/

local instance anyFitLaws : Laws Rat := ratLaws (2 ^ 53) (le_refl _)

/-- Calls on `nestedWords` and on the first ones, in lines of other widths. -/
theorem nested_wide (k : Nat) (hk : 1 ≤ k) (W : Nat) (hw : W ≤ 100) :
    AnyCall forward Env.ascii (dictOf sampleLines) [unit] demoText 1 (demo []) [] (nestedWords.take k) (nestedSpans.take k)
      (Arith.ofInt W : Rat) W := by
  obtain ⟨k, rfl⟩ := Nat.exists_eq_add_of_le' hk
  refine ⟨.new, sane_demo, forward_walks, digits_ascii, List.forall₂_take _ nested_call.found,
    ⟨[⟨runesOf "\x1b[1m", [], []⟩, ⟨runesOf "\x1b[4m", runesOf "aaaa", []⟩], rfl, ⟨runesOf "\x1b[4m", runesOf "aaaa", []⟩, by simp, by decide +kernel⟩,
    demo_scaled W, ?_⟩
  have h : ∀ j : Fin 4, lineWidth (measureOf (defaultOptions [unit]) demoText)
      (styledSyms (splitterOf Env.ascii (dictOf sampleLines) (defaultOptions [unit])) (nestedSpans.take j)) +
      (measureOf (defaultOptions [unit]) demoText).hyphen ≤ 1000 := by decide +kernel
  have hj : nestedSpans.take (k + 1) = nestedSpans.take (min (k + 1) 3) := by
    by_cases h3 : k + 1 ≤ 3
    · rw [Nat.min_eq_left h3]
    · rw [Nat.min_eq_right (by omega), List.take_of_length_le (by simp [nestedSpans]; omega), List.take_of_length_le (by simp [nestedSpans])]
  rw [hj]
  have := h ⟨min (k + 1) 3, by omega⟩
  have e : |(W : Int)| = W := abs_of_nonneg (by omega)
  rw [e]
  have hb : (2 : Int) ^ 53 ≤ Laws.bound Rat := le_refl _
  have : (1100 : Int) ≤ 2 ^ 53 := by decide
  simp only at *
  omega

/-- **C55**, a case: words in nested styles that fit. -/
example : ∃ line l', leftAlignUniform forward Env.ascii (demo []) nestedWords (Arith.ofInt 18) = .ok (some [line], l') ∧
    Sprinkled ([] ++ seqsOf nestedSpans) (runesOf "aaaa bbbb cccccccc") line := by
  have := C55_any_text (nested_wide 3 (by decide) 18 (by decide)) (by decide) (by decide) (by decide +kernel) (fun _ => 1)
    (sumOf_demo _) (by decide +kernel)
  rw [show List.intercalate [0x20] (textsOf (nestedSpans.take 3)) = runesOf "aaaa bbbb cccccccc" by decide +kernel] at this
  exact this

/-- **C98**, a case: the first two of these words are set, as all of them are. -/
example : ∃ lines l', leftAlignUniform forward Env.ascii (demo []) (nestedWords.take 2) (Arith.ofInt 10 : Rat) = .ok (some lines, l') := by
  refine C98_any (kept := nestedSpans.take 2) (removed := nestedSpans.drop 2) nested_call (nested_wide 2 (by decide) 10 (by decide))
    (by decide) (by decide +kernel) 86 (Laws.tenths_le _ _ (by decide)) (by decide) ?_
  obtain ⟨l', h⟩ : ∃ l', leftAlignUniform forward Env.ascii (demo []) nestedWords (Arith.ofInt 10 : Rat) =
      .ok (some (["\x1b[4m\x1b[4maaaa bbbb\x1b[0m", "\x1b[4m\x1b[1mcccccccc\x1b[0m\x1b[0m"].map runesOf), l') :=
    linesOf_ok (by decide +kernel)
  exact ⟨_, _, h⟩

/-- Words in lines of 60 columns, the first one in bold. -/
def boldRagged : List String := ["\x1b[1mzzzzzzzzz\x1b[0m", String.ofList (List.replicate 60 'z'), "aaaa"]

def boldSpans : List (List Span) :=
  [[⟨runesOf "\x1b[1m", List.replicate 9 0x7A, runesOf "\x1b[0m"⟩], [⟨[], List.replicate 60 0x7A, []⟩], [⟨[], runesOf "aaaa", []⟩]]

def boldLines : List (List Rune) :=
  [runesOf "\x1b[1mzzzzzzzzz\x1b[0m", List.replicate 60 0x7A, runesOf "aaaa"]

theorem bold_call : AnyCall forward Env.ascii (dictOf sampleLines) [unit] demoText 1 (demo []) [] (boldRagged.map runesOf) boldSpans
    (Arith.ofInt 60 : Rat) 60 :=
  ⟨.new, sane_demo, forward_walks, digits_ascii,
    .cons (found_run (by decide +kernel)) (.cons (found_run (by decide +kernel)) (.cons (found_run (by decide +kernel)) .nil)),
    ⟨_, rfl, ⟨runesOf "\x1b[1m", List.replicate 9 0x7A, runesOf "\x1b[0m"⟩, by simp, by decide⟩, demo_scaled 60, by decide +kernel⟩

theorem bold_run : ∃ l', leftAlignUniform forward Env.ascii (demo []) (boldRagged.map runesOf) (Arith.ofInt 60 : Rat) =
    .ok (some boldLines, l') := linesOf_ok (by decide +kernel)

/-- **C97**, a case: the first line shows 9 columns and leaves 51 free. -/
theorem C97_any_case : ∃ shown, List.Forall₂ (Sprinkled ([] ++ seqsOf boldSpans)) shown boldLines ∧
    (∀ t ∈ shown.dropLast, (60 : Int) - 51 ≤ demoText t) ∧
    ((boldLines.length : Int) - 1) * (60 - 51 - demoText [0x2D]) ≤ demoText (List.intercalate [0x20] (textsOf boldSpans)) := by
  obtain ⟨_, h⟩ := bold_run
  exact C97_any bold_call (by decide) (fun _ => own_demo) (fun _ => 1) (sumOf_demo _) 51 (by decide) (by decide +kernel) h

/-- **C52**, a case: these words have an acceptable setting. -/
theorem C52_any_case : Settable (measureOf (defaultOptions [unit]) demoText) 60 (Tolerated (defaultOptions [unit]))
    (styledSyms (splitterOf Env.ascii (dictOf sampleLines) (defaultOptions [unit])) boldSpans) := by
  obtain ⟨_, h⟩ := bold_run
  exact (C52_any bold_call (by decide)).1.mp ⟨_, _, h⟩

/-- Calls on the texts of these words. -/
theorem plain_ragged : AnyCall backward Env.ascii (dictOf sampleLines) [unit] demoText 1 (demo []) []
    ([List.replicate 9 0x7A, List.replicate 60 0x7A, runesOf "aaaa"])
    [[⟨[], List.replicate 9 0x7A, []⟩], [⟨[], List.replicate 60 0x7A, []⟩], [⟨[], runesOf "aaaa", []⟩]] (Arith.ofInt 60 : Rat) 60 :=
  ⟨.new, sane_demo, backward_walks, digits_ascii,
    .cons (found_run (by decide +kernel)) (.cons (found_run (by decide +kernel)) (.cons (found_run (by decide +kernel)) .nil)),
    ⟨_, rfl, ⟨[], List.replicate 9 0x7A, []⟩, by simp, by decide⟩, demo_scaled 60, by decide +kernel⟩

example : ∃ lines l', leftAlignUniform backward Env.ascii (demo []) [List.replicate 9 0x7A, List.replicate 60 0x7A, runesOf "aaaa"]
    (Arith.ofInt 60 : Rat) = .ok (some lines, l') := by
  obtain ⟨_, h⟩ := bold_run
  exact (C58_success_any_partial bold_call plain_ragged (by decide) (by decide +kernel)).1.mp ⟨_, _, h⟩

end Verif.Props
