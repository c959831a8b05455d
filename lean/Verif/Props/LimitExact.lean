import Verif.Props.LimitCases

/-! # C79: exactly which widths are too large, with the default options -/

namespace Verif.Props
open Verif.Go Verif.Model Verif.Model.LB Verif.Spec Verif.Spec.Ansi Verif.Spec.LB Verif.Proofs Verif.Proofs.LB

attribute [local irreducible] F64.pack F64.maxDouble F64.roundDouble F64.round53 defaultText

/-- A quotient above 8.60002 exceeds the default tolerance. -/
theorem over_tolerance {a b : Int} (ha : 0 ≤ a) (ha' : a ≤ 2 ^ 53) (hb : 0 < b) (hb' : b ≤ 2 ^ 53)
    (h : 563611 * b ≤ 65536 * a) :
    Arith.le (Arith.div (Arith.ofInt a) (Arith.ofInt b) : F64) (Arith.tenths 86) = false := by
  have h2 : F64.IsDouble ((563611 : Rat) / 65536) := ⟨563611, -16, by norm_num, by norm_num, by norm_num, by norm_num⟩
  have h1 : F64.IsDouble ((563610 : Rat) / 65536) := ⟨563610, -16, by norm_num, by norm_num, by norm_num, by norm_num⟩
  cases hc : Arith.le (Arith.div (Arith.ofInt a) (Arith.ofInt b) : F64) (Arith.tenths 86) with
  | false => rfl
  | true =>
    exfalso
    have hbq : (0 : Rat) < b := by exact_mod_cast hb
    have e1 : (563611 : Rat) / 65536 ≤ (a : Rat) / b := by
      rw [le_div_iff₀ hbq, div_mul_eq_mul_div, div_le_iff₀ (by norm_num)]
      have : ((563611 * b : Int) : Rat) ≤ ((65536 * a : Int) : Rat) := by exact_mod_cast h
      push_cast at this
      linarith
    rw [F64.tenths_def] at hc
    have hc : F64.le (F64.div (Arith.ofInt a) (Arith.ofInt b)) (F64.pack false (((86 : Int) : Rat) / 10)) = true := hc
    rw [F64.div_int ha ha' hb hb'] at hc
    have m1 := F64.le_trans' (F64.pack_mono e1 false _) hc
    have m2 := F64.le_trans' m1 (F64.pack_mono (show (((86 : Int) : Rat) / 10) ≤ 563610 / 65536 by norm_num) false false)
    rw [F64.pack_exact h2 false (fun _ => by norm_num), F64.pack_exact h1 false (fun _ => by norm_num)] at m2
    have := of_decide_eq_true m2
    norm_num at this

section
variable {rt : Runtime} {env : Env} {dict : Dictionary} {tokens : List (List Rune)} {l : LineBreaker F64} {W : Int}

theorem default_width (h : Ordinary tokens W) :
    lineWidth (measureOf (defaultOptions ([] : List (Opt F64))) defaultText)
        (paraSyms (splitterOf env dict (defaultOptions ([] : List (Opt F64)))) tokens) =
      defaultText (List.intercalate [0x20] tokens) := by
  have hl := lossless (env := env) (dict := dict) (sane_default (F := F64))
  obtain ⟨t1, t2⟩ := text_body hl (sumOf_default h) (measureOf (defaultOptions ([] : List (Opt F64))) defaultText)
    (measureOf_text _ _) (measureOf_space _ _)
    (paraSyms (splitterOf env dict (defaultOptions ([] : List (Opt F64)))) tokens) (fun _ h => h)
  rw [← t2, ← sumOf_default h _ t1, lineText_joined hl]

/-- With the default options, the first line of a paragraph whose text is narrower than the lines by 53 columns
or more is the whole text. -/
theorem only_line (c : Call rt env dict [] defaultText 1 l tokens (Arith.ofInt W : F64) W) (h : Ordinary tokens W)
    (hw : defaultText (List.intercalate [0x20] tokens) + 53 ≤ W) {hy : Sym → List Rune} {ls : List Line}
    (hL : Layout hy (Acceptable (measureOf (defaultOptions ([] : List (Opt F64))) defaultText) W
        (Tolerated (defaultOptions ([] : List (Opt F64))))) false true
      (paraSyms (splitterOf env dict (defaultOptions ([] : List (Opt F64)))) tokens) ls) :
    ls = [⟨paraSyms (splitterOf env dict (defaultOptions ([] : List (Opt F64)))) tokens, []⟩] ∧
      W - defaultText (List.intercalate [0x20] tokens) ≤ 86000 := by
  have hnn : ∀ p, 0 ≤ lineWidth (measureOf (defaultOptions ([] : List (Opt F64))) defaultText) p :=
    lineWidth_nonneg (setup_new (env := env) (dict := dict) c.sane)
  have hwid := default_width (env := env) (dict := dict) h
  have h53 : W ≤ 2 ^ 53 := by
    have := h.exact; have := defaultText_nonneg (List.intercalate [0x20] tokens); have := le_abs_self W; omega
  have he : ∀ s, endWidth (measureOf (defaultOptions ([] : List (Opt F64))) defaultText) s ≤ 1 ∧
      0 ≤ endWidth (measureOf (defaultOptions ([] : List (Opt F64))) defaultText) s := by
    have e : (measureOf (defaultOptions ([] : List (Opt F64))) defaultText).hyphen = 1 := by
      show (if true = true then defaultText [0x2D] else 0) = 1
      rw [defaultText_hyphen]; rfl
    intro s
    rcases s with _ | s
    · simp [endWidth]
    · cases s <;> simp only [endWidth] <;> (try split) <;> (try rw [e]) <;> decide
  generalize hm : measureOf (defaultOptions ([] : List (Opt F64))) defaultText = m at *
  generalize hss : paraSyms (splitterOf env dict (defaultOptions ([] : List (Opt F64)))) tokens = ss at *
  cases hL with
  | last p hp ha =>
    refine ⟨rfl, ?_⟩
    unfold Acceptable at ha
    simp only [endWidth, lineStretch, if_true, add_zero, sub_zero] at ha
    rcases ha with ha | ⟨_, _, ha⟩
    · omega
    · by_contra hc
      have := hnn ss
      unfold Tolerated at ha
      have hf := over_tolerance (a := W - lineWidth m ss) (b := 10000) (by omega) (by omega) (by decide) (by decide) (by omega)
      have e : (defaultOptions ([] : List (Opt F64))).tolerance = Arith.tenths 86 := rfl
      rw [e, hf] at ha
      cases ha
  | brk p s x a b d ha =>
    exfalso
    have h1 := hnn p
    have h2 : lineWidth m p ≤ defaultText (List.intercalate [0x20] tokens) := by
      rw [← hwid, lineWidth_append]
      exact le_add_of_nonneg_right (hnn _)
    obtain ⟨h3, h4⟩ := he (some s)
    unfold Acceptable at ha
    simp only at ha
    rcases ha with ha | ⟨_, hpos, ha⟩
    · omega
    · have hst : lineStretch m true p (some s) ≤ 6 := by
        unfold lineStretch
        cases s <;> simp <;> (try split) <;> omega
      have hf := over_tolerance (a := W - (lineWidth m p + endWidth m (some s))) (b := lineStretch m true p (some s))
        (by omega) (by omega) hpos (by omega) (by omega)
      unfold Tolerated at ha
      have e : (defaultOptions ([] : List (Opt F64))).tolerance = Arith.tenths 86 := rfl
      rw [e, hf] at ha
      cases ha
  | blankLine h => cases h
  | lastBlank h => cases h
  | blankAfter _ h => cases h

/-- **C79**, exactly, with the default options and whole widths: a text that fits is set if and only if the
width exceeds its own by at most 86000 columns. -/
theorem C79_exact_partial (hu : Used env dict [] l) (hw : Walks rt) (hd : AsciiDigits env) (h : Ordinary tokens W)
    (h0 : tokens ≠ []) (hf : tokens.head? ≠ some []) (hW : 0 < W)
    (ht : defaultText (List.intercalate [0x20] tokens) ≤ W) :
    ((∃ lines l', leftAlignUniform rt env l tokens (Arith.ofInt W : F64) = .ok (some lines, l')) ↔
      W - defaultText (List.intercalate [0x20] tokens) ≤ 86000) ∧
    ((∃ l', leftAlignUniform rt env l tokens (Arith.ofInt W : F64) = .ok (none, l')) ↔
      86000 < W - defaultText (List.intercalate [0x20] tokens)) := by
  have c := call_default (F := F64) hu hw hd h
  have key : Settable (measureOf (defaultOptions ([] : List (Opt F64))) defaultText) W
      (Tolerated (defaultOptions ([] : List (Opt F64))))
      (paraSyms (splitterOf env dict (defaultOptions ([] : List (Opt F64)))) tokens) ↔
      W - defaultText (List.intercalate [0x20] tokens) ≤ 86000 := by
    constructor
    · rintro ⟨ls, hL⟩
      by_cases h53 : defaultText (List.intercalate [0x20] tokens) + 53 ≤ W
      · exact (only_line c h h53 hL).2
      · omega
    · intro hle
      refine ⟨_, .last _ (starts_of_first c h0 hf) ?_⟩
      unfold Acceptable
      simp only [endWidth, lineStretch, if_true, add_zero, sub_zero]
      rw [default_width h]
      rcases eq_or_lt_of_le ht with e | e
      · exact Or.inl e
      · have hb := Laws.bound_large (F := F64)
        exact Or.inr ⟨e, by decide, Laws.div_tenths _ _ 86 (by omega) (by omega) (by decide) (by decide) (by omega)⟩
  obtain ⟨k1, k2⟩ := C52_set_iff c hW h0 hf
  exact ⟨k1.trans key, k2.trans (by rw [key]; exact not_le)⟩

/-- **C79.** With the default options, a text narrower than the lines by 53 to 86000 columns is set on one line. -/
theorem C79_one_line (hu : Used env dict [] l) (hw : Walks rt) (hd : AsciiDigits env) (h : Ordinary tokens W)
    (h0 : tokens ≠ []) (hf : tokens.head? ≠ some []) (hW : 0 < W)
    (h1 : defaultText (List.intercalate [0x20] tokens) + 53 ≤ W)
    (h2 : W - defaultText (List.intercalate [0x20] tokens) ≤ 86000) :
    ∃ l', leftAlignUniform rt env l tokens (Arith.ofInt W : F64) = .ok (some [List.intercalate [0x20] tokens], l') := by
  have c := call_default (F := F64) hu hw hd h
  obtain ⟨lines, l', hr⟩ := (C79_exact_partial hu hw hd h h0 hf hW (by omega)).1.mpr h2
  obtain ⟨ls, hL, rfl⟩ := call_lines c hW hf hr
  rw [(only_line c h h1 hL).1] at hr
  refine ⟨l', ?_⟩
  rw [hr]
  simp only [List.map_cons, List.map_nil, Line.text, List.append_nil]
  rw [lineText_joined (lossless (env := env) (dict := dict) (sane_default (F := F64)))]
  rfl

/-- **C79**, for every width that is at least that of the text, +Inf included: with the default options the text is
set if and only if the width is a number that exceeds its own by less than 86000.5. -/
theorem C79_any_width_partial {maxWidth : F64} (hu : Used env dict [] l) (hw : Walks rt) (hd : AsciiDigits env)
    (h : Ordinary tokens 0) (h0 : tokens ≠ []) (hf : tokens.head? ≠ some [])
    (hpos : 0 < defaultText (List.intercalate [0x20] tokens))
    (hle : defaultText (List.intercalate [0x20] tokens) ≤ 2 ^ 51)
    (hx : Above maxWidth (defaultText (List.intercalate [0x20] tokens))) :
    ((∃ lines l', leftAlignUniform rt env l tokens maxWidth = .ok (some lines, l')) ↔
      ∃ q, IsValue maxWidth q ∧ q < defaultText (List.intercalate [0x20] tokens) + 86000 + 1 / 2) ∧
    ((∃ lines l', leftAlignUniform rt env l tokens maxWidth = .ok (some lines, l')) ∨
      ∃ l', leftAlignUniform rt env l tokens maxWidth = .ok (none, l')) := by
  have hs : l.scaleFactor = Arith.ofInt 1 := by
    rw [(kept_used (sane_default (F := F64)) hd hu).options]; rfl
  have huniq : ∀ q q', IsValue maxWidth q → IsValue maxWidth q' → q = q' := by
    rintro q q' ⟨_, _, _, e⟩ ⟨_, _, _, e'⟩
    rw [e] at e'
    cases e'
    rfl
  generalize hD : defaultText (List.intercalate [0x20] tokens) = w at *
  by_cases hbig : Above maxWidth ((w + 1 : Int) + 1020001)
  · obtain ⟨l', hl'⟩ := C79_too_wide_fails (paragraph_default hu hw hd h) h0 (by omega) (by omega) rfl (by
      rw [hD]; exact hbig)
    refine ⟨⟨?_, ?_⟩, Or.inr ⟨l', hl'⟩⟩
    · rintro ⟨lines, l'', e⟩
      rw [hl'] at e
      cases e
    · rintro ⟨q, h1, h2⟩
      exfalso
      rcases hbig with e | ⟨q', h3, h4⟩
      · obtain ⟨_, _, _, e'⟩ := h1
        rw [e] at e'
        cases e'
      · rw [huniq q q' h1 h3] at h2
        push_cast at h4
        linarith
  · rcases hx with e | ⟨q, hq, hge⟩
    · exact absurd (Or.inl e) hbig
    have hlt : q < w + 1020002 := by
      by_contra hc
      exact hbig (Or.inr ⟨q, hq, by push_cast; linarith⟩)
    obtain ⟨W, hW1, hW2⟩ : ∃ W : Int, (W : Rat) - 1 / 2 ≤ q ∧ q < W + 1 / 2 := by
      refine ⟨(q + 1 / 2).floor, ?_, ?_⟩
      · have := (Rat.le_floor_iff (x := (q + 1 / 2).floor) (a := q + 1 / 2)).mp (le_refl _)
        linarith
      · have := (Rat.floor_lt_iff (a := q + 1 / 2) (x := (q + 1 / 2).floor + 1)).mp (by omega)
        push_cast at this
        linarith
    have g1 : w ≤ W := by
      have : (w : Rat) < ((W + 1 : Int) : Rat) := by push_cast; linarith
      have : w < W + 1 := by exact_mod_cast this
      omega
    have g2 : W ≤ w + 1020003 := by
      have : (W : Rat) < ((w + 1020003 : Int) : Rat) := by push_cast; linarith
      have : W < w + 1020003 := by exact_mod_cast this
      omega
    have ho : Ordinary tokens W := ⟨h.valid, h.escapeFree, by rw [hD, abs_of_pos (by omega)]; omega⟩
    rw [C78_nearest tokens hs hq (by omega) (by omega) hW1 hW2]
    obtain ⟨k1, k2⟩ := C79_exact_partial hu hw hd ho h0 hf (by omega) (by rw [hD]; exact g1)
    rw [hD] at k1 k2
    refine ⟨k1.trans ⟨fun hk => ⟨q, hq, ?_⟩, ?_⟩, ?_⟩
    · have : ((W - w : Int) : Rat) ≤ ((86000 : Int) : Rat) := by exact_mod_cast hk
      push_cast at this
      linarith
    · rintro ⟨q', h3, h4⟩
      rw [← huniq q q' hq h3] at h4
      have : ((W - w : Int) : Rat) < ((86001 : Int) : Rat) := by push_cast; linarith
      have : W - w < 86001 := by exact_mod_cast this
      omega
    · by_cases hk : W - w ≤ 86000
      · exact Or.inl (k1.mpr hk)
      · exact Or.inr (k2.mpr (by omega))

end

/-- Two words of 14 columns are set on one line in 86014 columns, and refused in 86015. -/
example : (∃ l', leftAlignUniform backward Env.ascii (new Env.ascii (dictOf sampleLines) [] : LineBreaker F64) twoWords
      (Arith.ofInt 86014) = .ok (some [List.intercalate [0x20] twoWords], l')) ∧
    ∃ l', leftAlignUniform backward Env.ascii (new Env.ascii (dictOf sampleLines) [] : LineBreaker F64) twoWords
      (Arith.ofInt 86015) = .ok (none, l') := by
  have ho : ∀ W : Int, 0 < W → W ≤ 90000 → Ordinary twoWords W := by
    intro W h1 h2
    have h := two_ordinary (W := 0) (by decide)
    exact ⟨h.valid, h.escapeFree, by rw [two_width, abs_of_pos h1]; omega⟩
  have e := two_width
  exact ⟨C79_one_line .new backward_walks digits_ascii (ho _ (by decide) (by decide)) (by decide +kernel) (by decide +kernel)
      (by decide) (by omega) (by omega),
    (C79_exact_partial .new backward_walks digits_ascii (ho _ (by decide) (by decide)) (by decide +kernel) (by decide +kernel)
      (by decide) (by omega)).2.mpr (by omega)⟩

/-- They are refused without limit. -/
example {l : LineBreaker F64} (hu : Used Env.ascii (dictOf sampleLines) [] l) :
    ¬ ∃ lines l', leftAlignUniform forward Env.ascii l twoWords (.inf false) = .ok (some lines, l') := by
  have e := two_width
  have := (C79_any_width_partial hu forward_walks digits_ascii (two_ordinary (by decide)) (by decide +kernel) (by decide +kernel)
    (by omega) (by omega) (Or.inl rfl)).1
  rw [this]
  rintro ⟨q, ⟨_, _, _, h⟩, _⟩
  cases h

end Verif.Props
