import Verif.Proofs.LBMeasure
import Verif.Props.Ansi
import Verif.Props.Display
import Verif.Props.LinebreakDefault

/-! # C92: the width of styled lines

The lines returned for styled text are measured as a caller does it: StripToken is called on each of them and the
Texts it finds are measured (linebreak/linebreaker_test.go, testRenderLines). The hypotheses are the ones of
`Verif.Props.Styled`. -/

set_option linter.unusedSectionVars false

namespace Verif.Props
open Verif.Go Verif.Model Verif.Model.LB Verif.Model.Ansi Verif.Spec Verif.Spec.Ansi Verif.Spec.LB Verif.Proofs Verif.Proofs.LB
  Verif.Proofs.Ansi

section
variable {F : Type} [Arith F] [Laws F] {rt : Runtime} {env : Env} {dict : Dictionary} {opts : List (Opt F)}
  {text : List Rune → Int} {n : Nat} {l l' : LineBreaker F} {hist : List Piece} {words : List (List Chunk)}
  {maxWidth : F} {W : Int} {lines : List (List Rune)}

/-- The texts of words without their sequences. -/
def plainWords (words : List (List Chunk)) : List (List Rune) := words.map (fun cs => cs.flatMap Chunk.text)

theorem plainWords_spans (words : List (List Chunk)) :
    plainWords words = (spansOf words).map (fun t => t.flatMap Span.text) := by
  simp [plainWords, spansOf, chunkSpan, List.flatMap_map, Function.comp_def]

theorem styled_plain (hs : Sane (defaultOptions opts) text n) (hm : ∀ cs ∈ words, ChunkWord env cs) :
    chars (styledSyms (splitterOf env dict (defaultOptions opts)) (spansOf words)) = joined (plainWords words) := by
  have hl := lossless (env := env) (dict := dict) hs
  rw [plainWords_spans, styled_chars hl _ (fun t ht => (words_full hm t ht).2)]

theorem styled_whole (sp : Splitter) (hb : sp.breakWords = false) (tks : List (List Span)) : .soft ∉ styledSyms sp tks := by
  have h1 : ∀ t : List Span, .soft ∉ spansSyms sp t := by
    intro t h
    obtain ⟨x, _, hx⟩ := List.mem_flatMap.mp h
    exact (para_whole sp hb [x.text]).1 hx
  induction tks with
  | nil => simp [styledSyms]
  | cons t ts ih =>
    cases ts with
    | nil => exact h1 t
    | cons u us =>
      intro h
      rcases List.mem_append.mp h with h | h
      · exact h1 t h
      · rcases List.mem_cons.mp h with h | h
        · cases h
        · exact ih h

theorem forall₂_left {α β : Type} {R : α → β → Prop} {as : List α} {bs : List β} (h : List.Forall₂ R as bs) :
    ∀ a ∈ as, ∃ b ∈ bs, R a b := by
  induction h with
  | nil => intro a h; cases h
  | cons h _ ih =>
    intro a ha
    rcases List.mem_cons.mp ha with rfl | ha
    · exact ⟨_, by simp, h⟩
    · obtain ⟨b, hb, hr⟩ := ih a ha
      exact ⟨b, by simp [hb], hr⟩

/-- **C92** (partial: parameters have at most two digits and texts between sequences are not empty). Whatever the line
breaker was used for before, StripToken, called on any slice that holds a line, returns; the texts it finds make up the line without
its sequences; they hold no rune but the ones of the words, spaces and hyphens; and, when the measurer adds up, their
widths add up to the requested one at most. -/
theorem C92_measured_partial (c : StyledCall rt env dict opts text 1 l hist words maxWidth W) (hW : 0 < W)
    (ho : (defaultOptions opts).renderHyphens = true → OwnPenalty (defaultOptions opts))
    (wd : Rune → Int) (hwd : SumOf text (plainWords words) wd)
    (h : leftAlignUniform rt env l (words.map chunkWord) maxWidth = .ok (some lines, l')) :
    ∀ line ∈ lines, ∀ mem v, IsSlice mem v → v.elems mem = line →
      ∃ toks, stripToken env mem v = .ok (toks, mem) ∧
        Visible env line (toks.flatMap (fun t => textElems mem t.text)) ∧
        (∀ t ∈ toks, ∀ r ∈ textElems mem t.text, r = 0x20 ∨ r = 0x2D ∨ ∃ u ∈ plainWords words, r ∈ u) ∧
        (toks.map (fun t => text (textElems mem t.text))).sum ≤ W := by
  rcases styled_exact c hW (styled_nil words h) with ⟨_, h1⟩ | ⟨_, ls, h1, h2⟩
  · obtain ⟨l'', h1⟩ := h1 words c.made rfl
    rw [h1] at h; cases h
  · obtain ⟨lines', l'', e, h3, _⟩ := h2 words c.made rfl
    rw [e] at h
    cases h
    have hl := lossless (env := env) (dict := dict) c.sane
    intro line hline mem v hv he
    have hg : ∀ p ∈ hist ++ styledPieces (splitterOf env dict (defaultOptions opts)) (spansOf words), GoodPiece env p := by
      intro p hp
      rcases List.mem_append.mp hp with hp | hp
      · exact used_good c.sane c.used p hp
      · exact styled_good hl (fun w hw => (c.made w hw).good) p hp
    have hm := wrapped_madeOf (no_escape 1) hg h3 (layout_endings h1 hyOf_cases) line hline
    rw [← he] at hm
    obtain ⟨toks, g1, g2, g3⟩ := strip_visible c.digits hv.1 hv.2 hm
    rw [he] at g2
    obtain ⟨shown, hs1, hs2⟩ := forall₂_left (wrapped_shown c.sane c.used c.made h1 h3) line hline
    obtain ⟨x, hx, rfl⟩ := List.mem_map.mp hs1
    have hw := layout_widths c.sane (styled_plain c.sane c.made)
      (fun hb => styled_whole (splitterOf env dict (defaultOptions opts)) hb _) wd hwd
      (layout_hy (fun s hs => hyOf_own ho s hs) h1) x hx
    have hr1 : List.replicate 1 (0x20 : Rune) = [0x20] := rfl
    rw [hr1] at hs2
    rw [← visible_unique g2 hs2] at hw
    obtain ⟨w1, w2⟩ := hw
    have hr : ∀ t ∈ toks, ∀ r ∈ textElems mem t.text, r = 0x20 ∨ r = 0x2D ∨ ∃ u ∈ plainWords words, r ∈ u :=
      fun t ht r hr => w2 r (List.mem_flatMap.mpr ⟨t, ht, hr⟩)
    refine ⟨toks, g1, g2, hr, ?_⟩
    rw [hwd _ w2] at w1
    have : ∀ ts : List StrippedToken, (∀ t ∈ ts, t ∈ toks) →
        (ts.map (fun t => text (textElems mem t.text))).sum = ((ts.flatMap (fun t => textElems mem t.text)).map wd).sum := by
      intro ts
      induction ts with
      | nil => simp
      | cons t ts ih =>
        intro hts
        simp only [List.map_cons, List.sum_cons, List.flatMap_cons, List.map_append, List.sum_append]
        rw [ih (fun u hu => hts u (by simp [hu])), hwd _ (hr t (hts t (by simp)))]
    rw [this toks (fun _ h => h)]
    exact w1

end

/-! ## The default options -/

section
variable {F : Type} [Arith F] [Laws F]
attribute [local irreducible] defaultText

/-- Styled words that a default line breaker takes: code points; and their total width with the requested one is
represented exactly. -/
structure OrdinaryStyled (env : Env) (words : List (List Chunk)) (W : Int) : Prop where
  made : ∀ cs ∈ words, ChunkWord env cs
  valid : ∀ t ∈ plainWords words, ∀ r ∈ t, 0 ≤ r ∧ r ≤ 0x10FFFF
  exact : defaultText (List.intercalate [0x20] (plainWords words)) + 1 + |W| ≤ 2 ^ 53

theorem sumOf_styled {env : Env} {words : List (List Chunk)} {W : Int} (h : OrdinaryStyled env words W) :
    SumOf defaultText (plainWords words) (fun r => plainWidth r % 4) := by
  intro t ht
  refine defaultText_sum t (fun r hr => ?_)
  rcases ht r hr with rfl | rfl | ⟨u, hu, hr⟩
  · decide
  · decide
  · exact h.valid u hu r hr

theorem lineText_of_chars {ss : List Sym} {ts : List (List Rune)} (h : chars ss = joined ts) (g : List Rune) :
    lineText g ss = List.intercalate g ts := by
  rw [lineText_chars, h]
  clear h
  induction ts with
  | nil => rfl
  | cons t ts ih =>
    cases ts with
    | nil => simp [joined, chText_runes, List.intercalate]
    | cons u us =>
      simp only [joined, chText_append, chText_runes, chText, ih]
      simp [List.intercalate]

/-- Calls of a line breaker with the default options on styled words. -/
theorem styled_default {rt : Runtime} {env : Env} {dict : Dictionary} {words : List (List Chunk)} {hist : List Piece} {W : Int}
    {l : LineBreaker F} (hu : StyledUsed env dict [] l hist) (hw : Walks rt) (hd : AsciiDigits env) (h : OrdinaryStyled env words W) :
    StyledCall rt env dict [] defaultText 1 l hist words (Arith.ofInt W : F) W := by
  refine ⟨hu, sane_default, hw, hd, h.made, ?_, ?_⟩
  · show Arith.round (Arith.mul (Arith.ofInt W) (Arith.ofInt 1)) = _
    rw [Laws.mul_one, Laws.round_int]
  · have hc := styled_plain (env := env) (dict := dict) (sane_default (F := F)) h.made
    obtain ⟨t1, t2⟩ := text_syms hc (sumOf_styled h) (measureOf (defaultOptions ([] : List (Opt F))) defaultText)
      (measureOf_text _ _) (measureOf_space _ _) _ (fun _ h => h)
    rw [← t2, ← sumOf_styled h _ t1, lineText_of_chars hc]
    have e : (measureOf (defaultOptions ([] : List (Opt F))) defaultText).hyphen = 1 := by
      show (if true = true then defaultText [0x2D] else 0) = 1
      rw [defaultText_hyphen]; rfl
    rw [e]
    exact le_trans h.exact Laws.bound_large

/-- The sum of the widths computed by runes.Widths of some texts. -/
inductive WidthSum : List (List Rune) → Int → Prop where
  | nil : WidthSum [] 0
  | cons {t : List Rune} {ts : List (List Rune)} {w s : Int} :
      widthsOf .init t [] = .ok w → WidthSum ts s → WidthSum (t :: ts) (w + s)

theorem widthSum_total {ts : List (List Rune)} (hv : ∀ t ∈ ts, ∀ r ∈ t, 0 ≤ r ∧ r ≤ 0x10FFFF) :
    ∃ w, w = (ts.map defaultText).sum ∧ WidthSum ts w := by
  induction ts with
  | nil => exact ⟨0, by simp, .nil⟩
  | cons t ts ih =>
    obtain ⟨w, e, h⟩ := ih (fun u hu => hv u (by simp [hu]))
    refine ⟨_, ?_, .cons (widthsOf_table .start t [] rfl (hv t (by simp))) h⟩
    rw [List.map_cons, List.sum_cons, e, defaultText_sum t (hv t (by simp))]

/-- **C92** (partial, as before), with the default options and an integral width: the widths that runes.Widths computes
for the texts that StripToken finds in a line add up to the requested width at most. -/
theorem C92_default_partial {rt : Runtime} {env : Env} {dict : Dictionary} {words : List (List Chunk)} {hist : List Piece}
    {W : Int} {l l' : LineBreaker F} {lines : List (List Rune)} (hu : StyledUsed env dict [] l hist) (hw : Walks rt)
    (hd : AsciiDigits env) (h : OrdinaryStyled env words W) (hW : 0 < W)
    (hr : leftAlignUniform rt env l (words.map chunkWord) (Arith.ofInt W) = .ok (some lines, l')) :
    ∀ line ∈ lines, ∀ mem v, IsSlice mem v → v.elems mem = line →
      ∃ toks w, stripToken env mem v = .ok (toks, mem) ∧
        Visible env line (toks.flatMap (fun t => textElems mem t.text)) ∧
        WidthSum (toks.map (fun t => textElems mem t.text)) w ∧ w ≤ W := by
  intro line hl mem v hv he
  obtain ⟨toks, h1, h2, h3, h4⟩ := C92_measured_partial (styled_default hu hw hd h) hW (fun _ => own_default) _ (sumOf_styled h) hr
    line hl mem v hv he
  have hval : ∀ t ∈ toks.map (fun t => textElems mem t.text), ∀ r ∈ t, 0 ≤ r ∧ r ≤ 0x10FFFF := by
    intro t ht r hr
    obtain ⟨k, hk, rfl⟩ := List.mem_map.mp ht
    rcases h3 k hk r hr with rfl | rfl | ⟨u, hu, hr⟩
    · decide
    · decide
    · exact h.valid u hu r hr
  obtain ⟨w, e, h5⟩ := widthSum_total hval
  refine ⟨toks, w, h1, h2, h5, ?_⟩
  rw [e, List.map_map]
  exact h4

end

/-! ## Cases -/

local instance styledWidthLaws : Laws Rat := ratLaws (2 ^ 53) (le_refl _)

/-- The hypotheses are met: each line of `styledLinesDemo` is measured, in a slice of its own. -/
example : ∀ line ∈ styledLinesDemo, ∃ toks, stripToken Env.ascii line ⟨0, line.length⟩ = .ok (toks, line) ∧
    Visible Env.ascii line (toks.flatMap (fun t => textElems line t.text)) ∧
    (toks.map (fun t => demoText (textElems line t.text))).sum ≤ 5 := by
  obtain ⟨l', h⟩ := styled_run
  intro line hl
  have hlen : IsSlice line ⟨0, line.length⟩ := by
    have : ∀ line ∈ styledLinesDemo, IsSlice line ⟨0, line.length⟩ := by decide +kernel
    exact this line hl
  obtain ⟨toks, h1, h2, _, h4⟩ := C92_measured_partial (styled_call forward_walks) (by decide) (fun _ => own_demo) _
    (sumOf_demo (plainWords styledWords)) h line hl line ⟨0, line.length⟩ hlen (by simp [View.elems])
  exact ⟨toks, h1, h2, h4⟩

/-- The texts found on these lines. -/
example : styledLinesDemo.map (fun line => (stripToken Env.ascii line ⟨0, line.length⟩).map
      (fun p => p.1.map (fun t => textElems line t.text))) =
    [[runesOf "x,"], [runesOf "aa-"], [runesOf "bbdcc"], [runesOf "yyyy"], [runesOf "zz"]].map Except.ok := by
  decide +kernel

/-! ## Failures -/

/-- **C92** fails for parameters of three digits: StripToken finds the sequence of one of 256 colours as a text of its
own, so the line returned for a word in this colour is measured wider than the text it shows; and in a width in which
this text fits, the sequence is cut in two and its end is shown. -/
theorem C92_three_digits_fails :
    linesOf forward (demo []) ["\x1b[38;5;200maaaa\x1b[0m"] 20 = .ok (some [runesOf "\x1b[38;5;200maaaa\x1b[0m\x1b[0m"]) ∧
    (stripToken Env.ascii (runesOf "\x1b[38;5;200maaaa\x1b[0m\x1b[0m") ⟨0, 23⟩).map
        (fun p => p.1.map (fun t => textElems (runesOf "\x1b[38;5;200maaaa\x1b[0m\x1b[0m") t.text)) =
      .ok [runesOf "\x1b[38;5;200m", runesOf "aaaa", []] ∧
    Visible Env.ascii (runesOf "\x1b[38;5;200maaaa\x1b[0m\x1b[0m") (runesOf "aaaa") ∧
    linesOf forward (demo []) ["\x1b[38;5;200maaaa\x1b[0m"] 10 =
      .ok (some [runesOf "\x1b[38;", runesOf "5;200maaaa\x1b[0m\x1b[0m"]) := by
  refine ⟨by decide +kernel, by decide +kernel, ?_, by decide +kernel⟩
  have e : runesOf "\x1b[38;5;200maaaa\x1b[0m\x1b[0m" =
      CtlSeq.runes ⟨[0x33, 0x38], [(0x3B, [0x35]), (0x3B, [0x32, 0x30, 0x30])], 0x6D⟩ ++
        ([0x61, 0x61, 0x61, 0x61] ++ (resetSeq.runes ++ (resetSeq.runes ++ []))) := by decide +kernel
  have e2 : runesOf "aaaa" = [0x61, 0x61, 0x61, 0x61] := by decide +kernel
  have h2 : resetSeq.WellFormed Env.ascii := ⟨by decide, by decide, by decide⟩
  rw [e, e2]
  exact .seq ⟨by decide, by decide, by decide⟩ (.rune (by decide) (.rune (by decide) (.rune (by decide) (.rune (by decide)
    (.seq h2 (.seq h2 .nil))))))

end Verif.Props
