import Verif.Props.Linebreak

/-! # C51, C55: paragraphs broken with the default options -/

set_option linter.unusedSectionVars false

namespace Verif.Props
open Verif.Go Verif.Model Verif.Model.LB Verif.Spec Verif.Spec.Ansi Verif.Spec.LB Verif.Proofs Verif.Proofs.LB

section
variable {F : Type} [Arith F] [Laws F]

/-- Options without scaling, with integral widths. -/
theorem sane_unscaled {o : Options F} {text : List Rune → Int} {n : Nat} (h1 : o.scaleFactor = Arith.ofInt 1)
    (h2 : ∀ t, o.measurer t = Arith.ofInt (text t)) (h3 : ∀ t, 0 ≤ text t) (h4 : text [0x20] = n)
    (h5 : text [0x20] ≤ Laws.bound F) (penalty : Within o.hyphenPenalty 10000)
    (finite : Arith.eq o.hyphenPenalty (Arith.ofInt 10000) = false)
    (notForced : Arith.eq o.hyphenPenalty (Arith.ofInt (-10000)) = false) (tolerance : Within o.tolerance 50)
    (hyphenator : o.hyphenator = none) (punctuator : o.punctuator = none) (room : n ≤ 2 ^ 46 := by decide) :
    Sane o text n := by
  refine ⟨?_, h3, h5, ?_, ?_, penalty, finite, notForced, tolerance, ?_, ?_, room⟩
  · intro t
    rw [Options.scale, h1, h2, Laws.mul_one, Laws.round_int]
  · rw [Options.downScale, h1, Laws.div_one, Laws.round_int, Laws.toInt_int _ (small 0 (by decide))]
  · rw [Options.downScale, h1, Laws.div_one, Laws.round_int, Laws.toInt_int, h4]
    rw [abs_of_nonneg (h3 _)]; exact h5
  · intro f hf; rw [hyphenator] at hf; cases hf
  · intro f hf; rw [punctuator] at hf; cases hf

/-- A width, or 0 for a panic. -/
def orZero : Res Int → Int
  | .ok w => w
  | .error _ => 0

/-- The width of a text with the default measurer. -/
def defaultText (t : List Rune) : Int := orZero (widthsOf .init t [])

theorem defaultText_sum (t : List Rune) (h : ∀ r ∈ t, 0 ≤ r ∧ r ≤ 0x10FFFF) :
    defaultText t = (t.map (fun r => plainWidth r % 4)).sum :=
  congrArg orZero (widthsOf_table .start t [] rfl h)

theorem sum_nonneg (t : List Rune) (f : Rune → Int) (h : ∀ r, 0 ≤ f r) : 0 ≤ (t.map f).sum := by
  induction t with
  | nil => exact le_refl _
  | cons r t ih => simp only [List.map_cons, List.sum_cons]; have := h r; omega

theorem defaultText_nonneg (t : List Rune) : 0 ≤ defaultText t := by
  by_cases h : ∃ r ∈ t, r < 0 ∨ 0x10FFFF < r
  · exact le_of_eq (congrArg orZero (widthsOf_panic .start t [] rfl h)).symm
  · rw [defaultText_sum t (fun r hr => by by_contra hc; exact h ⟨r, hr, by omega⟩)]
    exact sum_nonneg t _ (fun r => Int.emod_nonneg _ (by decide))

theorem widthAsFloat_eq (e : Res (Int × WGlobals)) : (widthAsFloat e : F) = Arith.ofInt (orZero (e.map Prod.fst)) := by
  cases e <;> rfl

theorem defaultMeasurer_eq (t : List Rune) : (defaultMeasurer t : F) = Arith.ofInt (defaultText t) :=
  widthAsFloat_eq (widths .init t [])

theorem defaultText_space : defaultText [0x20] = 1 := by
  rw [defaultText_sum _ (by simp)]; decide +kernel

theorem defaultText_hyphen : defaultText [0x2D] = 1 := by
  rw [defaultText_sum _ (by simp)]; decide +kernel

attribute [local irreducible] defaultText

omit [Laws F] in
theorem measureOf_text (o : Options F) (text : List Rune → Int) : (measureOf o text).text = text := rfl

omit [Laws F] in
theorem measureOf_space (o : Options F) (text : List Rune → Int) : (measureOf o text).space = text [0x20] := rfl

omit [Laws F] in
theorem default_measurer : (defaultOptions ([] : List (Opt F))).measurer = defaultMeasurer := by
  simp only [defaultOptions, List.foldl_nil, defaults]

theorem sane_default : Sane (defaultOptions ([] : List (Opt F))) defaultText 1 := by
  refine sane_unscaled rfl (fun t => by rw [default_measurer]; exact defaultMeasurer_eq t) defaultText_nonneg defaultText_space ?_ ?_ ?_ ?_ ?_ rfl rfl
  · rw [defaultText_space]; exact (by decide : (1 : Int) ≤ 2 ^ 53).trans Laws.bound_large
  · exact within_int 300 10000 (by decide) (by decide) (by decide)
  · show Arith.eq (Arith.ofInt 300 : F) _ = false
    rw [eq_small (F := F) 300 10000 (by decide) (by decide)]; rfl
  · show Arith.eq (Arith.ofInt 300 : F) _ = false
    rw [eq_small (F := F) 300 (-10000) (by decide) (by decide)]; rfl
  · refine ⟨?_, ?_⟩
    · rw [← Laws.tenths_int 0]; exact Laws.tenths_le _ _ (by decide)
    · rw [← Laws.tenths_int 50]; exact Laws.tenths_le _ _ (by decide)

theorem own_default : OwnPenalty (defaultOptions ([] : List (Opt F))) := by
  have key : ∀ a : Int, |a| ≤ 1000000 → Arith.eq (Arith.ofInt a : F) (defaultOptions ([] : List (Opt F))).hyphenPenalty = decide (a = 300) := by
    intro a ha
    exact eq_small (F := F) a 300 ha (by decide)
  exact ⟨by rw [key 0 (by decide)]; rfl, by rw [key 200 (by decide)]; rfl, by rw [key 400 (by decide)]; rfl,
    by have := key 300 (by decide); exact this⟩

/-- Words that a default line breaker takes: code points, no escape sequence; and their total width with the
requested one is represented exactly. -/
structure Ordinary (tokens : List (List Rune)) (W : Int) : Prop where
  valid : ∀ t ∈ tokens, ∀ r ∈ t, 0 ≤ r ∧ r ≤ 0x10FFFF
  escapeFree : ∀ t ∈ tokens, EscapeFree t
  exact : defaultText (List.intercalate [0x20] tokens) + 1 + |W| ≤ 2 ^ 53

theorem sumOf_default {tokens : List (List Rune)} {W : Int} (h : Ordinary tokens W) :
    SumOf defaultText tokens (fun r => plainWidth r % 4) := by
  intro t ht
  refine defaultText_sum t (fun r hr => ?_)
  rcases ht r hr with rfl | rfl | ⟨u, hu, hr⟩
  · decide
  · decide
  · exact h.valid u hu r hr

/-- Calls of a line breaker with the default options, whatever it was used for before. -/
theorem call_default {rt : Runtime} {env : Env} {dict : Dictionary} {tokens : List (List Rune)} {W : Int}
    {l : LineBreaker F} (hu : Used env dict [] l) (hw : Walks rt) (hd : AsciiDigits env) (h : Ordinary tokens W) :
    Call rt env dict [] defaultText 1 l tokens (Arith.ofInt W : F) W := by
  refine ⟨hu, sane_default, hw, hd, h.escapeFree, ?_, ?_⟩
  · show Arith.round (Arith.mul (Arith.ofInt W) (Arith.ofInt 1)) = _
    rw [Laws.mul_one, Laws.round_int]
  · have hl := lossless (env := env) (dict := dict) (sane_default (F := F))
    obtain ⟨t1, t2⟩ := text_body hl (sumOf_default h) (measureOf (defaultOptions ([] : List (Opt F))) defaultText)
      (measureOf_text _ _) (measureOf_space _ _)
      (paraSyms (splitterOf env dict (defaultOptions ([] : List (Opt F)))) tokens) (fun _ h => h)
    rw [← t2, ← sumOf_default h _ t1, lineText_joined hl]
    have e : (measureOf (defaultOptions ([] : List (Opt F))) defaultText).hyphen = 1 := by
      show (if true = true then defaultText [0x2D] else 0) = 1
      rw [defaultText_hyphen]; rfl
    rw [e]
    exact le_trans h.exact Laws.bound_large

/-- **C51**, with the default options and an integral width: no line is wider than requested. -/
theorem C51_default_partial {rt : Runtime} {env : Env} {dict : Dictionary} {tokens : List (List Rune)} {W : Int}
    {l l' : LineBreaker F} {lines : List (List Rune)} (hu : Used env dict [] l) (hw : Walks rt) (hd : AsciiDigits env)
    (h : Ordinary tokens W) (hW : 0 < W) (hf : tokens.head? ≠ some [])
    (hr : leftAlignUniform rt env l tokens (Arith.ofInt W) = .ok (some lines, l')) :
    ∀ line ∈ lines, ∃ w, widthsOf .init line [] = .ok w ∧ w ≤ W := by
  have c := call_default hu hw hd h
  intro line hl
  have h1 := C51_width_partial c hW hf (fun _ => own_default) _ (sumOf_default h) hr line hl
  have hv : ∀ r ∈ line, 0 ≤ r ∧ r ≤ 0x10FFFF := by
    obtain ⟨ls, g1, rfl⟩ := call_lines c hW hf hr
    have hlo := lossless (env := env) (dict := dict) (sane_default (F := F))
    obtain ⟨x, hx, rfl⟩ := List.mem_map.mp hl
    obtain ⟨g2, f, s, _, g3⟩ := layout_each g1 x hx
    obtain ⟨t1, _⟩ := text_body hlo (sumOf_default h) (measureOf (defaultOptions ([] : List (Opt F))) defaultText)
      (measureOf_text _ _) (measureOf_space _ _) x.body g2
    intro r hr
    unfold Line.text at hr
    rw [List.mem_append] at hr
    rcases hr with hr | hr
    · rcases t1 r hr with rfl | rfl | ⟨u, hu, hr⟩
      · decide
      · decide
      · exact h.valid u hu r hr
    · rcases g3 with e | ⟨s', _, e, _⟩
      · rw [e] at hr; cases hr
      · rw [e] at hr
        rcases hyOf_cases (env := env) (dict := dict) (opts := ([] : List (Opt F))) s' with e | e <;> rw [e] at hr <;> simp at hr
        subst hr; decide
  refine ⟨_, widthsOf_table .start line [] rfl hv, ?_⟩
  rw [← defaultText_sum line hv]
  exact h1

/-- **C55**, with the default options: a paragraph whose words joined by spaces fit is set on one line. -/
theorem C55_default {rt : Runtime} {env : Env} {dict : Dictionary} {tokens : List (List Rune)} {W : Int}
    {l : LineBreaker F} (hu : Used env dict [] l) (hw : Walks rt) (hd : AsciiDigits env)
    (h : Ordinary tokens W) (hW : 0 < W) (hn : W ≤ 4997) (h0 : tokens ≠ []) (hf : tokens.head? ≠ some [])
    (hfit : defaultText (List.intercalate [0x20] tokens) ≤ W) :
    ∃ l', leftAlignUniform rt env l tokens (Arith.ofInt W) = .ok (some [List.intercalate [0x20] tokens], l') :=
  C55_text_fits (call_default hu hw hd h) hW h0 hf hn (Laws.tenths_le _ _ (by decide)) _ (sumOf_default h) hfit

end

end Verif.Props
