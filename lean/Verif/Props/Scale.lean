import Verif.Props.Fit
import Verif.Props.Float64Cases

/-! # C103: the scale factor -/

set_option linter.unusedSectionVars false

namespace Verif.Props
open Verif.Go Verif.Model Verif.Model.LB Verif.Spec Verif.Spec.Ansi Verif.Spec.LB Verif.Proofs Verif.Proofs.LB

section
variable {F : Type} [Arith F] [Laws F] {rt rt' : Runtime} {env : Env} {dict : Dictionary} {opts : List (Opt F)}
  {text : List Rune → Int} {n n' : Nat} {l l₂ : LineBreaker F} {tokens : List (List Rune)} {maxWidth : F} {W k : Int}

omit [Laws F] in
theorem scaled_options (f : F) (more : List (Opt F)) (hm : more = [] ∨ ∃ y, more = [.tolerance y]) :
    (∀ text : List Rune → Int, measureOf (defaultOptions (opts ++ .scaleFactor f :: more)) text = measureOf (defaultOptions opts) text) ∧
    splitterOf env dict (defaultOptions (opts ++ .scaleFactor f :: more)) = splitterOf env dict (defaultOptions opts) := by
  have e : ∃ t, defaultOptions (opts ++ .scaleFactor f :: more) =
      { defaultOptions opts with scaleFactor := f, tolerance := t } := by
    rcases hm with rfl | ⟨y, rfl⟩
    · exact ⟨(defaultOptions opts).tolerance, by simp [defaultOptions, Opt.apply]⟩
    · exact ⟨y, by simp [defaultOptions, Opt.apply]⟩
  obtain ⟨t, e⟩ := e
  rw [e]
  exact ⟨fun _ => rfl, rfl⟩

/-- Widths are multiplied. -/
theorem lineWidth_scaled (o : Options F) (text : List Rune → Int) (k : Int) (p : List Sym) :
    lineWidth (measureOf o (fun t => k * text t)) p = k * lineWidth (measureOf o text) p := by
  induction p with
  | nil => simp [lineWidth]
  | cons s p ih =>
    cases s <;> simp only [lineWidth, ih] <;> simp only [measureOf] <;> rw [Int.mul_add]

theorem endWidth_scaled (o : Options F) (text : List Rune → Int) (k : Int) (s : Option Sym) :
    endWidth (measureOf o (fun t => k * text t)) s = k * endWidth (measureOf o text) s := by
  match s with
  | none => simp [endWidth]
  | some (.part _) => simp [endWidth]
  | some .gap => simp [endWidth]
  | some .mark => simp [endWidth]
  | some .hard => simp [endWidth]
  | some .soft =>
    simp only [endWidth, measureOf]
    by_cases h1 : o.renderHyphens = true <;> by_cases h2 : o.wordBreak = true <;> simp [h1, h2]

/-- A line in the scaled unit. -/
theorem acceptable_scaled (o : Options F) (text : List Rune → Int) (hk : 0 < k) (ok : Int → Int → Prop)
    (f : Bool) (p : List Sym) (s : Option Sym) :
    Acceptable (measureOf o (fun t => k * text t)) (k * W) ok f p s ↔
      Acceptable (measureOf o text) W (fun d s => ok (k * d) s) f p s := by
  unfold Acceptable
  simp only [lineWidth_scaled, endWidth_scaled]
  have e : lineStretch (measureOf o (fun t => k * text t)) f p s = lineStretch (measureOf o text) f p s := rfl
  rw [e, ← Int.mul_add, ← Int.mul_sub]
  have h1 : k * (lineWidth (measureOf o text) p + endWidth (measureOf o text) s) = k * W ↔
      lineWidth (measureOf o text) p + endWidth (measureOf o text) s = W :=
    ⟨fun h => Int.eq_of_mul_eq_mul_left (by omega) h, fun h => by rw [h]⟩
  have h2 : k * (lineWidth (measureOf o text) p + endWidth (measureOf o text) s) < k * W ↔
      lineWidth (measureOf o text) p + endWidth (measureOf o text) s < W :=
    ⟨fun h => Int.lt_of_mul_lt_mul_left h (by omega), fun h => Int.mul_lt_mul_of_pos_left h hk⟩
  rw [h1, h2]

omit [Laws F] [Arith F] in
theorem stretch_le (m : Measure) (b : Bool) (p : List Sym) (s : Option Sym) : lineStretch m b p s ≤ 10000 := by
  unfold lineStretch
  split <;> split <;> (try split) <;> (try split) <;> omega

/-- What is missing on an acceptable line. -/
theorem missing_le (hs : Sane (defaultOptions opts) text n) (p : List Sym) (s : Option Sym) :
    0 ≤ lineWidth (measureOf (defaultOptions opts) text) p + endWidth (measureOf (defaultOptions opts) text) s := by
  have h1 : ∀ p, 0 ≤ lineWidth (measureOf (defaultOptions opts) text) p := by
    intro p
    induction p with
    | nil => simp [lineWidth]
    | cons x p ih =>
      have := hs.nonneg [0x20]
      cases x with
      | part t => have := hs.nonneg t; simp only [lineWidth, measureOf] at ih ⊢; omega
      | gap => simp only [lineWidth, measureOf] at ih ⊢; omega
      | soft => exact ih
      | mark => exact ih
      | hard => exact ih
  have h2 : 0 ≤ endWidth (measureOf (defaultOptions opts) text) s := by
    unfold endWidth
    split
    · split
      · simp only [measureOf]; split
        · exact hs.nonneg _
        · omega
      · omega
    · omega
  have := h1 p
  omega

/-- A layout in a finer unit is one in the coarser unit. -/
theorem finer_set {ss : List Sym} (f : F) (hs : Sane (defaultOptions opts) text n) (hk : 0 < k) (hkW : k * W ≤ Laws.bound F)
    (h : Settable (measureOf (defaultOptions opts) fun t => k * text t) (k * W)
      (Tolerated (defaultOptions (opts ++ [.scaleFactor f]))) ss) :
    Settable (measureOf (defaultOptions opts) text) W (Tolerated (defaultOptions opts)) ss := by
  obtain ⟨ls, hl⟩ := h
  refine ⟨ls, layout_mono (fun f' p s ha => ?_) hl⟩
  rw [acceptable_scaled _ _ hk] at ha
  rcases ha with e | ⟨a1, a2, a3⟩
  · exact Or.inl e
  · refine Or.inr ⟨a1, a2, ?_⟩
    have et : (defaultOptions (opts ++ [.scaleFactor f])).tolerance = (defaultOptions opts).tolerance := by
      simp [defaultOptions, Opt.apply]
    unfold Tolerated at a3 ⊢
    rw [et] at a3
    have b1 := missing_le hs p s
    have b2 := stretch_le (measureOf (defaultOptions opts) text) f' p s
    have b3 := Laws.bound_large (F := F)
    refine Laws.le_trans _ _ _ (Laws.div_mono (F := F) _ _ _ _ (by omega) ?_ ?_ a2 (le_refl _) (by omega)) a3
    · have := Int.mul_le_mul_of_nonneg_right (show 1 ≤ k by omega) (show 0 ≤ W - (lineWidth (measureOf (defaultOptions opts)
        text) p + endWidth (measureOf (defaultOptions opts) text) s) by omega)
      rwa [Int.one_mul] at this
    · refine _root_.le_trans ?_ hkW
      exact Int.mul_le_mul_of_nonneg_left (by omega) (by omega)

/-- The width of the lines in a finer unit. -/
theorem finer_bound {ss : List Sym} (hs : Sane (defaultOptions opts) text n) (hk : 0 < k)
    (hb : lineWidth (measureOf (defaultOptions opts) fun t => k * text t) ss +
      (measureOf (defaultOptions opts) fun t => k * text t).hyphen + |k * W| ≤ Laws.bound F) : k * W ≤ Laws.bound F := by
  rw [lineWidth_scaled] at hb
  have hnn : 0 ≤ lineWidth (measureOf (defaultOptions opts) text) ss := by simpa [endWidth] using missing_le hs ss none
  have hhy : 0 ≤ (measureOf (defaultOptions opts) (fun t => k * text t)).hyphen := by
    simp only [measureOf]; split
    · exact Int.mul_nonneg (by omega) (hs.nonneg _)
    · omega
  have a1 := Int.mul_nonneg (by omega : 0 ≤ k) hnn
  have a2 : k * W ≤ |k * W| := le_abs_self _
  exact _root_.le_trans a2 (_root_.le_trans (by linarith) hb)

/-- **C103** (partial: one direction, with any integral factor). A paragraph that is set in a finer unit, all widths
being multiplied by `k`, is also set in the coarser one. -/
theorem C103_finer_partial (f : F) (c : Call rt env dict opts text n l tokens maxWidth W)
    (c' : Call rt' env dict (opts ++ [.scaleFactor f]) (fun t => k * text t) n' l₂ tokens maxWidth (k * W)) (hk : 0 < k)
    (hW : 0 < W) (hf : tokens.head? ≠ some [])
    (h : ∃ lines l', leftAlignUniform rt' env l₂ tokens maxWidth = .ok (some lines, l')) :
    ∃ lines l', leftAlignUniform rt env l tokens maxWidth = .ok (some lines, l') := by
  by_cases h0 : tokens = []
  · subst h0
    obtain ⟨_, _, h⟩ := h
    rw [align_nil] at h; cases h
  obtain ⟨e1, e2⟩ := scaled_options (env := env) (dict := dict) (opts := opts) f [] (Or.inl rfl)
  have h1 := (C52_set_iff c' (Int.mul_pos hk hW) h0 hf).1.mp h
  refine (C52_set_iff c hW h0 hf).1.mpr ?_
  rw [e1, e2] at h1
  have hb := c'.exact
  rw [e1, e2] at hb
  exact finer_set f c.sane hk (finer_bound c.sane hk hb) h1

/-- The same layouts, if the tolerance is changed with the unit. -/
theorem tolerance_set {ss : List Sym} (f y : F) (hs : Sane (defaultOptions opts) text n) (hk : 0 < k)
    (hy : ∀ d s, 0 < d → d ≤ W → 0 < s → s ≤ 10000 →
      (Arith.le (Arith.div (Arith.ofInt (k * d)) (Arith.ofInt s : F)) y = true ↔
        Arith.le (Arith.div (Arith.ofInt d) (Arith.ofInt s : F)) (defaultOptions opts).tolerance = true)) :
    Settable (measureOf (defaultOptions opts) fun t => k * text t) (k * W)
      (Tolerated (defaultOptions (opts ++ [.scaleFactor f, .tolerance y]))) ss ↔
    Settable (measureOf (defaultOptions opts) text) W (Tolerated (defaultOptions opts)) ss := by
  have et : (defaultOptions (opts ++ [.scaleFactor f, .tolerance y])).tolerance = y := by
    simp [defaultOptions, Opt.apply]
  have key : ∀ (b : Bool) (p : List Sym) (s : Option Sym),
      Acceptable (measureOf (defaultOptions opts) fun t => k * text t) (k * W)
        (Tolerated (defaultOptions (opts ++ [.scaleFactor f, .tolerance y]))) b p s ↔
      Acceptable (measureOf (defaultOptions opts) text) W (Tolerated (defaultOptions opts)) b p s := by
    intro b p s
    rw [acceptable_scaled _ _ hk]
    have b1 := missing_le hs p s
    have b2 := stretch_le (measureOf (defaultOptions opts) text) b p s
    unfold Acceptable Tolerated
    rw [et]
    refine or_congr Iff.rfl (and_congr_right fun h1 => and_congr_right fun h2 => hy _ _ ?_ ?_ h2 b2)
    · omega
    · omega
  constructor
  · rintro ⟨ls, hl⟩
    exact ⟨ls, layout_mono (fun b p s => (key b p s).mp) hl⟩
  · rintro ⟨ls, hl⟩
    exact ⟨ls, layout_mono (fun b p s => (key b p s).mpr) hl⟩

/-- **C103** (partial: when the tolerance is changed with the unit). If the tolerance accepts `k` times the missing
widths for the new one as for the old, the same paragraphs are set. -/
theorem C103_tolerance_partial (f y : F) (c : Call rt env dict opts text n l tokens maxWidth W)
    (c' : Call rt' env dict (opts ++ [.scaleFactor f, .tolerance y]) (fun t => k * text t) n' l₂ tokens maxWidth (k * W))
    (hk : 0 < k) (hW : 0 < W) (hf : tokens.head? ≠ some [])
    (hy : ∀ d s, 0 < d → d ≤ W → 0 < s → s ≤ 10000 →
      (Arith.le (Arith.div (Arith.ofInt (k * d)) (Arith.ofInt s : F)) y = true ↔
        Arith.le (Arith.div (Arith.ofInt d) (Arith.ofInt s : F)) (defaultOptions opts).tolerance = true)) :
    (∃ lines l', leftAlignUniform rt' env l₂ tokens maxWidth = .ok (some lines, l')) ↔
      ∃ lines l', leftAlignUniform rt env l tokens maxWidth = .ok (some lines, l') := by
  by_cases h0 : tokens = []
  · subst h0
    simp [align_nil]
  obtain ⟨e1, e2⟩ := scaled_options (env := env) (dict := dict) (opts := opts) f [.tolerance y] (Or.inr ⟨y, rfl⟩)
  rw [(C52_set_iff c' (Int.mul_pos hk hW) h0 hf).1, (C52_set_iff c hW h0 hf).1, e1, e2]
  exact tolerance_set f y c.sane hk hy

/-- Two undivided words, the second of the width of the lines. -/
theorem two_words {m : Measure} {a b : List Rune} {ok : Int → Int → Prop} (h1 : 0 < m.text a + m.space)
    (h2 : m.text a < m.text b) :
    Settable m (m.text b) ok [.part a, .gap, .part b] ↔ ok (m.text b - m.text a) 6 := by
  constructor
  · rintro ⟨ls, hl⟩
    generalize hss : [Sym.part a, .gap, .part b] = ss at hl
    cases hl with
    | blankLine h _ => cases h
    | lastBlank h => cases h
    | blankAfter p h _ _ _ => cases h
    | last p _ h =>
      subst hss
      simp only [Acceptable, lineWidth, endWidth] at h
      omega
    | brk p s x g1 g2 g3 g4 g5 =>
      rcases p with _ | ⟨y, p⟩
      · exact absurd g1 (by simp [StartsWithPart])
      · simp only [List.cons_append, List.cons.injEq] at hss
        obtain ⟨rfl, hss⟩ := hss
        rcases p with _ | ⟨y, p⟩
        · simp only [List.nil_append, List.cons.injEq] at hss
          obtain ⟨rfl, _⟩ := hss
          simp only [Acceptable, lineWidth, endWidth, lineStretch] at g4
          rcases g4 with g4 | ⟨_, _, g4⟩
          · omega
          · simpa using g4
        · simp only [List.cons_append, List.cons.injEq] at hss
          obtain ⟨rfl, hss⟩ := hss
          rcases p with _ | ⟨y, p⟩
          · simp only [List.nil_append, List.cons.injEq] at hss
            exact absurd hss.1.symm (g2 b)
          · simp at hss
  · intro h
    refine ⟨_, .brk (rest := [.part b]) [.part a] .gap [] ?_ (by simp) (Or.inl rfl) ?_ (.last [.part b] ?_ ?_)⟩
    · simp [StartsWithPart]
    · refine Or.inr ?_
      simp only [lineWidth, endWidth, lineStretch]
      refine ⟨by omega, by simp, ?_⟩
      simpa using h
    · simp [StartsWithPart]
    · refine Or.inl ?_
      simp [lineWidth, endWidth]

/-- **C103** fails. Two undivided words, the second `d` wider than the first and exactly as wide as the lines: if `d` is
tolerated but not `k * d`, they are set without the factor and refused with it. -/
theorem C103_refused_fails {a b : List Rune} (f : F) (c : Call rt env dict opts text n l [a, b] maxWidth W)
    (c' : Call rt' env dict (opts ++ [.scaleFactor f]) (fun t => k * text t) n' l₂ [a, b] maxWidth (k * W))
    (hk : 0 < k) (ha : a ≠ [])
    (ua : tokenSyms (splitterOf env dict (defaultOptions opts)) a = [.part a])
    (ub : tokenSyms (splitterOf env dict (defaultOptions opts)) b = [.part b]) (hW : W = text b)
    (h1 : 0 < text a + text [0x20]) (h2 : text a < text b)
    (hd : Arith.le (Arith.div (Arith.ofInt (text b - text a)) (Arith.ofInt 6 : F)) (defaultOptions opts).tolerance = true)
    (hkd : Arith.le (Arith.div (Arith.ofInt (k * (text b - text a))) (Arith.ofInt 6 : F)) (defaultOptions opts).tolerance = false) :
    (∃ lines l', leftAlignUniform rt env l [a, b] maxWidth = .ok (some lines, l')) ∧
      ∃ l', leftAlignUniform rt' env l₂ [a, b] maxWidth = .ok (none, l') := by
  have hpos : 0 < W := by have := c.sane.nonneg a; omega
  obtain ⟨e1, e2⟩ := scaled_options (env := env) (dict := dict) (opts := opts) f [] (Or.inl rfl)
  have hs : paraSyms (splitterOf env dict (defaultOptions opts)) [a, b] = [.part a, .gap, .part b] := by
    simp [paraSyms, ua, ub]
  refine ⟨(C52_set_iff c hpos (by simp) (by simpa using ha)).1.mpr ?_,
    (C52_set_iff c' (Int.mul_pos hk hpos) (by simp) (by simpa using ha)).2.mpr ?_⟩
  · rw [hs, hW]
    exact (two_words (m := measureOf (defaultOptions opts) text) h1 h2).mpr hd
  · rw [e1, e2, hs, hW]
    intro h
    have h1' : 0 < k * (text a + text [0x20]) := Int.mul_pos hk h1
    rw [Int.mul_add] at h1'
    have := (two_words (m := measureOf (defaultOptions opts) fun t => k * text t) h1'
      (Int.mul_lt_mul_of_pos_left h2 hk)).mp h
    have et : (defaultOptions (opts ++ [.scaleFactor f])).tolerance = (defaultOptions opts).tolerance := by
      simp [defaultOptions, Opt.apply]
    unfold Tolerated at this
    rw [et] at this
    simp only [measureOf] at this
    rw [← Int.mul_sub, hkd] at this
    cases this

end

/-! ## Cases -/

local instance scaleLaws : Laws Rat := ratLaws (2 ^ 53) (le_refl _)

/-- Every rune has width 1 and the factor is `k`: the widths are `k` times the number of runes. -/
theorem sane_scaled (k : Int) (hk : 0 < k) (hk2 : k ≤ 2 ^ 40) (more : List (Opt Rat)) (hm : more = [] ∨ ∃ y, more = [.tolerance y] ∧ Within y 50) :
    Sane (defaultOptions ([unit, .wordBreak false] ++ .scaleFactor (k : Rat) :: more)) (fun t => k * demoText t) 1 := by
  have h0 : (0 : Rat) < k := by exact_mod_cast hk
  have e : ∃ t, defaultOptions ([unit, .wordBreak false] ++ .scaleFactor (k : Rat) :: more) =
      { defaultOptions [unit, .wordBreak false] with scaleFactor := k, tolerance := t } ∧ Within t 50 := by
    rcases hm with rfl | ⟨y, rfl, hy⟩
    · exact ⟨(defaultOptions [unit, .wordBreak false]).tolerance, by simp [defaultOptions, Opt.apply], sane_whole.tolerance⟩
    · exact ⟨y, by simp [defaultOptions, Opt.apply], hy⟩
  obtain ⟨t, e, ht⟩ := e
  rw [e]
  refine ⟨fun t => ?_, fun t => Int.mul_nonneg (by omega) (Int.natCast_nonneg _), ?_, ?_, ?_, sane_whole.penalty,
    sane_whole.finite, sane_whole.notForced, ht, sane_whole.hyphenator, sane_whole.punctuator, sane_whole.room⟩
  · show ratRound (((t.length : Nat) : Rat) * (k : Rat)) = ((k * demoText t : Int) : Rat)
    rw [← ratRound_int (k * demoText t)]
    congr 1
    show _ = ((k * ((t.length : Nat) : Int) : Int) : Rat)
    push_cast
    ring
  · show k * 1 ≤ (2 ^ 53 : Int)
    have : (2 : Int) ^ 40 ≤ 2 ^ 53 := by decide
    omega
  · show ratTrunc (ratRound (((0 : Int) : Rat) / (k : Rat))) = 0
    simp only [Int.cast_zero, zero_div]
    decide +kernel
  · show ratTrunc (ratRound (((k * 1 : Int) : Rat) / (k : Rat))) = ((1 : Nat) : Int)
    rw [Int.mul_one, div_self (ne_of_gt h0)]
    decide +kernel

theorem call_scaled (k : Int) (hk : 0 < k) (hk2 : k ≤ 2 ^ 40) (more : List (Opt Rat))
    (hm : more = [] ∨ ∃ y, more = [.tolerance y] ∧ Within y 50) {tokens : List (List Rune)} {W : Int}
    (h : ∀ t ∈ tokens, (t.length : Int) < 2 ^ 63 ∧ (0x1B : Rune) ∉ t)
    (hx : ((List.intercalate [0x20] tokens).length : Int) + 1 + |W| ≤ 2 ^ 13) :
    Call forward Env.ascii (dictOf sampleLines) ([unit, .wordBreak false] ++ .scaleFactor (k : Rat) :: more)
      (fun t => k * demoText t) 1 (demo ([.wordBreak false] ++ .scaleFactor (k : Rat) :: more)) tokens (Arith.ofInt W : Rat) (k * W) := by
  obtain ⟨e1, e2⟩ := scaled_options (env := Env.ascii) (dict := dictOf sampleLines) (opts := [unit, .wordBreak false]) (k : Rat) more
    (hm.imp id fun ⟨y, h, _⟩ => ⟨y, h⟩)
  refine ⟨.new, sane_scaled k hk hk2 more hm, forward_walks, digits_ascii, fun t ht => escapeFree_of (h t ht).1 (h t ht).2, ?_, ?_⟩
  · have e : (defaultOptions ([unit, .wordBreak false] ++ .scaleFactor (k : Rat) :: more)).scaleFactor = k := by
      rcases hm with rfl | ⟨y, rfl, hy⟩ <;> simp [defaultOptions, Opt.apply]
    show ratRound ((W : Rat) * _) = ((k * W : Int) : Rat)
    rw [e, ← ratRound_int (k * W)]
    congr 1
    push_cast
    ring
  · have hc := unit_call [.wordBreak false] sane_whole rfl h (_root_.le_trans hx (by decide))
    have hl := lossless (env := Env.ascii) (dict := dictOf sampleLines) sane_whole
    obtain ⟨t1, t2⟩ := text_body hl (sumOf_demo tokens) (measureOf (defaultOptions [unit, .wordBreak false]) demoText)
      rfl rfl (paraSyms (splitterOf Env.ascii (dictOf sampleLines) (defaultOptions [unit, .wordBreak false])) tokens) (fun _ h => h)
    rw [e1, e2, lineWidth_scaled, ← t2, ← sumOf_demo tokens _ t1, lineText_joined hl]
    have hy : (measureOf (defaultOptions [unit, .wordBreak false]) fun t => k * demoText t).hyphen = 0 := rfl
    rw [hy, abs_mul, abs_of_pos hk]
    have e : demoText (List.intercalate [0x20] tokens) = (List.intercalate [0x20] tokens).length := rfl
    rw [e, Int.add_zero, ← Int.mul_add]
    show _ ≤ (2 ^ 53 : Int)
    calc k * (((List.intercalate [0x20] tokens).length : Int) + |W|) ≤ 2 ^ 40 * 2 ^ 13 :=
          Int.mul_le_mul hk2 (by omega) (by have := abs_nonneg W; omega) (by decide)
      _ = 2 ^ 53 := by decide

/-- A short word and one of thirty letters. -/
def shortLong : List (List Rune) := [runesOf "a", List.replicate 30 0x62]

/-- They are set in lines of thirty columns, but not with any factor from 2 on. -/
example (k : Int) (hk : 2 ≤ k) (hk2 : k ≤ 2 ^ 40) :
    (∃ lines l', leftAlignUniform forward Env.ascii (demo [.wordBreak false]) shortLong (Arith.ofInt 30) = .ok (some lines, l')) ∧
      ∃ l', leftAlignUniform forward Env.ascii (demo [.wordBreak false, .scaleFactor (k : Rat)]) shortLong (Arith.ofInt 30) =
        .ok (none, l') := by
  refine C103_refused_fails (opts := [unit, .wordBreak false]) (k : Rat)
    (unit_call [.wordBreak false] sane_whole rfl (by decide +kernel) (by decide +kernel))
    (call_scaled k (by omega) hk2 [] (Or.inl rfl) (by decide +kernel) (by decide +kernel)) (by omega) (by decide +kernel)
    (by decide +kernel) (by decide +kernel) (by decide +kernel) (by decide +kernel) (by decide +kernel) (by decide +kernel) ?_
  have e : demoText (List.replicate 30 0x62) - demoText (runesOf "a") = 29 := by decide +kernel
  rw [e]
  show decide ((((k * 29 : Int) : Rat) / ((6 : Int) : Rat)) ≤ (86 : Int) / 10) = false
  rw [decide_eq_false_iff_not, not_le, div_lt_div_iff₀ (by norm_num) (by norm_num)]
  have : (2 : Rat) ≤ k := by exact_mod_cast hk
  push_cast
  linarith

/-- With a tolerance multiplied by the factor, the same paragraphs are set. -/
example : (∃ lines l', leftAlignUniform forward Env.ascii (demo [.wordBreak false, .scaleFactor 3, .tolerance (129 / 5)]) shortLong (Arith.ofInt 30) =
      .ok (some lines, l')) ↔
    ∃ lines l', leftAlignUniform forward Env.ascii (demo [.wordBreak false]) shortLong (Arith.ofInt 30) = .ok (some lines, l') := by
  refine C103_tolerance_partial (opts := [unit, .wordBreak false]) 3 (129 / 5)
    (unit_call [.wordBreak false] sane_whole rfl (by decide +kernel) (by decide +kernel))
    (call_scaled 3 (by decide) (by decide) [.tolerance (129 / 5)] (Or.inr ⟨_, rfl, ⟨by decide +kernel, by decide +kernel⟩⟩)
      (by decide +kernel) (by decide +kernel)) (by decide) (by decide) (by decide +kernel) ?_
  intro d s _ _ hs _
  show decide ((((3 * d : Int) : Rat) / (s : Rat)) ≤ 129 / 5) = true ↔ decide (((d : Rat) / (s : Rat)) ≤ (86 : Int) / 10) = true
  have : (0 : Rat) < s := by exact_mod_cast hs
  rw [decide_eq_true_iff, decide_eq_true_iff, div_le_iff₀ this, div_le_iff₀ this]
  push_cast
  constructor <;> intro h <;> linarith

/-- The paragraph of `fitWords`, set with the factor 2 and so without. -/
example : ∃ lines l', leftAlignUniform forward Env.ascii (demo [.wordBreak false]) (fitWords.map runesOf) (Arith.ofInt 6) =
    .ok (some lines, l') :=
  C103_finer_partial (opts := [unit, .wordBreak false]) 2
    (fit_call [.wordBreak false] sane_whole rfl)
    (call_scaled 2 (by decide) (by decide) [] (Or.inl rfl) fit_valid (by decide +kernel)) (by decide) (by decide)
    (by decide +kernel)
    ⟨_, linesOf_ok (r := some (["(aa)", "bbbb", "cccc-c", "dd", "eeeeee"].map runesOf)) (by decide +kernel)⟩

/-- **C103** fails in float64. -/
theorem C103_float64_fails :
    linesOf64 forward (demo64 [.wordBreak false]) ["a", "bbbbbbbbbbbbbbbbbbbbbbbbbbbbbb"] 30 =
      .ok (some [runesOf "a", runesOf "bbbbbbbbbbbbbbbbbbbbbbbbbbbbbb"]) ∧
    linesOf64 forward (demo64 [.wordBreak false, .scaleFactor (Arith.ofInt 3)]) ["a", "bbbbbbbbbbbbbbbbbbbbbbbbbbbbbb"] 30 = .ok none := by
  decide +kernel

end Verif.Props
