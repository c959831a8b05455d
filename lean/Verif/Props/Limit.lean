import Verif.Spec.Limit
import Verif.Proofs.LBSpecial
import Verif.Props.LinebreakDefault

/-! # C51, C78–C80: the requested width as a float64 -/

set_option linter.unusedSectionVars false
set_option linter.unusedSimpArgs false

namespace Verif.Props
open Verif.Go Verif.Model Verif.Model.LB Verif.Spec Verif.Spec.Ansi Verif.Spec.LB Verif.Proofs Verif.Proofs.LB

attribute [local irreducible] F64.pack F64.maxDouble F64.roundDouble F64.round53 defaultText

theorem floor_eq {x : Rat} {n : Int} (h1 : (n : Rat) ≤ x) (h2 : x < n + 1) : x.floor = n := by
  have a := (Rat.le_floor_iff (x := n) (a := x)).mpr h1
  have b : x.floor < n + 1 := (Rat.floor_lt_iff).mpr (by push_cast; exact h2)
  omega

theorem ratRound_near {q : Rat} {W : Int} (hW : 0 < W) (h1 : (W : Rat) - 1 / 2 ≤ q) (h2 : q < W + 1 / 2) :
    ratRound q = W := by
  have hW' : (1 : Rat) ≤ W := by exact_mod_cast hW
  unfold ratRound
  rw [if_pos (by linarith), floor_eq (n := W) (by linarith) (by linarith)]

theorem ratRound_ge {q : Rat} {n : Int} (h0 : 0 ≤ n) (h : (n : Rat) + 1 ≤ q) : (n : Rat) ≤ ratRound q := by
  have h0' : (0 : Rat) ≤ n := by exact_mod_cast h0
  unfold ratRound
  rw [if_pos (by linarith)]
  exact_mod_cast (Rat.le_floor_iff (x := n) (a := q + 1 / 2)).mpr (by linarith)

theorem ratRound_nonpos {q : Rat} (h : q < 1 / 2) : ratRound q ≤ 0 := by
  unfold ratRound
  split
  · have : (q + 1 / 2).floor < 1 := (Rat.floor_lt_iff).mpr (by push_cast; linarith)
    exact_mod_cast (by omega : (q + 1 / 2).floor ≤ 0)
  · have : (q - 1 / 2).ceil ≤ 0 := (Rat.ceil_le_iff).mpr (by push_cast; linarith)
    exact_mod_cast this

theorem ratRound_neg {q : Rat} (h : q ≤ -1 / 2) : ratRound q ≤ -1 := by
  unfold ratRound
  rw [if_neg (by linarith)]
  have : (q - 1 / 2).ceil ≤ -1 := (Rat.ceil_le_iff).mpr (by push_cast; linarith)
  exact_mod_cast this

theorem scale_near {o : Options F64} (h : o.scaleFactor = Arith.ofInt 1) {x : F64} {q : Rat} (hx : IsValue x q) {W : Int}
    (hW : 0 < W) (hW2 : W ≤ 2 ^ 53) (h1 : (W : Rat) - 1 / 2 ≤ q) (h2 : q < W + 1 / 2) : o.scale x = Arith.ofInt W := by
  obtain ⟨s, k1, k2, rfl⟩ := hx
  rw [scale_one h]
  show F64.pack s (ratRound q) = _
  rw [ratRound_near hW h1 h2]
  have hi : |W| ≤ 2 ^ 53 := by rwa [abs_of_pos hW]
  obtain ⟨t, ht, e1, _, e2⟩ := F64.pack_double (F64.isDouble_int hi) s
  obtain ⟨t', ht', e1', _, e2'⟩ := F64.pack_double (F64.isDouble_int hi) false
  have hne : (W : Rat) ≠ 0 := by exact_mod_cast hW.ne'
  rw [F64.ofInt_def, e1, e1']
  exact F64.fin_congr (by rw [e2 hne, e2' hne]) rfl

/-- **C78** A width counts as the nearest whole number of columns: from half a column on, and without scaling, a line
breaker in any state returns for any texts what it returns for this number. -/
theorem C78_nearest {rt : Runtime} {env : Env} {l : LineBreaker F64} (tokens : List (List Rune)) {maxWidth : F64} {q : Rat}
    {W : Int} (hs : l.scaleFactor = Arith.ofInt 1) (hx : IsValue maxWidth q) (hW : 0 < W) (hW2 : W ≤ 2 ^ 53)
    (h1 : (W : Rat) - 1 / 2 ≤ q) (h2 : q < W + 1 / 2) :
    leftAlignUniform rt env l tokens maxWidth = leftAlignUniform rt env l tokens (Arith.ofInt W) := by
  have e : l.toOptions.scale maxWidth = l.toOptions.scale (Arith.ofInt W) := by
    rw [scale_near hs hx hW hW2 h1 h2, Options.scale, hs, Laws.mul_one, Laws.round_int]
  unfold leftAlignUniform
  simp only [e]

/-- **C78**, with the default options: no line is wider than the requested width by more than half a column. -/
theorem C78_half_column {rt : Runtime} {env : Env} {dict : Dictionary} {tokens : List (List Rune)} {maxWidth : F64} {q : Rat}
    {W : Int} {l l' : LineBreaker F64} {lines : List (List Rune)} (hu : Used env dict [] l) (hw : Walks rt)
    (hd : AsciiDigits env) (h : Ordinary tokens W) (hx : IsValue maxWidth q) (hW : 0 < W) (h1 : (W : Rat) - 1 / 2 ≤ q)
    (h2 : q < W + 1 / 2) (hf : tokens.head? ≠ some [])
    (hr : leftAlignUniform rt env l tokens maxWidth = .ok (some lines, l')) :
    ∀ line ∈ lines, ∃ w, widthsOf .init line [] = .ok w ∧ (w : Rat) ≤ q + 1 / 2 := by
  have hs : l.scaleFactor = Arith.ofInt 1 := by
    rw [(kept_used (sane_default (F := F64)) hd hu).options]; rfl
  have hW2 : W ≤ 2 ^ 53 := by
    have := h.exact; have := defaultText_nonneg (List.intercalate [0x20] tokens); have := le_abs_self W; omega
  rw [C78_nearest tokens hs hx hW hW2 h1 h2] at hr
  intro line hl
  obtain ⟨w, e1, e2⟩ := C51_default_partial hu hw hd h hW hf hr line hl
  refine ⟨w, e1, ?_⟩
  have : (w : Rat) ≤ W := by exact_mod_cast e2
  linarith

/-- **C51** fails of fractional widths: with the default options a text whose width `W` exceeds the requested one by
at most half a column is returned as one line, which is wider than requested. -/
theorem C51_fraction_fails {rt : Runtime} {env : Env} {dict : Dictionary} {tokens : List (List Rune)} {maxWidth : F64} {q : Rat}
    {W : Int} {l : LineBreaker F64} (hu : Used env dict [] l) (hw : Walks rt) (hd : AsciiDigits env)
    (h : Ordinary tokens W) (h0 : tokens ≠ []) (hf : tokens.head? ≠ some []) (hW : 0 < W) (hn : W ≤ 4997)
    (ht : widthsOf .init (List.intercalate [0x20] tokens) [] = .ok W) (hx : IsValue maxWidth q)
    (h1 : (W : Rat) - 1 / 2 ≤ q) (h2 : q < W) :
    ∃ l', leftAlignUniform rt env l tokens maxWidth = .ok (some [List.intercalate [0x20] tokens], l') ∧
      ∃ w, widthsOf .init (List.intercalate [0x20] tokens) [] = .ok w ∧ q < w := by
  have hs : l.scaleFactor = Arith.ofInt 1 := by
    rw [(kept_used (sane_default (F := F64)) hd hu).options]; rfl
  have e : defaultText (List.intercalate [0x20] tokens) = W := by
    unfold defaultText; rw [ht]; rfl
  obtain ⟨l', hl⟩ := C55_default (F := F64) hu hw hd h hW hn h0 hf (le_of_eq e)
  exact ⟨l', by rw [C78_nearest tokens hs hx hW (by omega) h1 (by linarith)]; exact hl, W, ht, h2⟩

/-! ## Widths that are too large -/

section
variable {rt : Runtime} {env : Env} {dict : Dictionary} {opts : List (Opt F64)} {text : List Rune → Int} {n : Nat}
  {l : LineBreaker F64} {tokens : List (List Rune)} {B : Int} {maxWidth : F64}

theorem infinity_refused {o : Options F64} (ht : Within o.tolerance 50) : Arith.le (infinity : F64) o.tolerance = false := by
  obtain ⟨s, t, h1, h2, e, h3, h4⟩ := F64.within_fin ht (by norm_num)
  show F64.le (Arith.ofInt 10000) o.tolerance = false
  rw [e, F64.ofInt_eq (by norm_num)]
  refine decide_eq_false (fun h => ?_)
  push_cast at h h4
  linarith

/-- No line of a paragraph is acceptable for an ideal width that is far too large. -/
theorem noLine_above {o : Options F64} (ht : Within o.tolerance 50) (hB0 : B + 1020000 ≤ 2 ^ 53) {z : F64}
    (hz : F64.le (Arith.ofInt (B + 1020000)) z = true) : NoLine o z 0 B := by
  intro w st h1 h2 h3
  have hB1 : |B + 1020000| ≤ 2 ^ 53 := by rw [abs_of_nonneg (by omega)]; exact hB0
  have hw : |w| ≤ 2 ^ 53 := by rw [abs_of_nonneg h1]; omega
  have hst : |st| ≤ 2 ^ 53 := by omega
  rw [F64.ofInt_eq hB1] at hz
  have hlt : Arith.lt (Arith.ofInt w) z = true := by
    show F64.lt (Arith.ofInt w) z = true
    rw [F64.ofInt_eq hw]
    cases z with
    | nan => cases hz
    | inf s => cases s <;> first | rfl | cases hz
    | fin s p k1 k2 =>
      have := of_decide_eq_true hz
      refine decide_eq_true ?_
      have h2' : (w : Rat) ≤ B := by exact_mod_cast h2
      push_cast at this
      linarith
  unfold ratioOf
  rw [if_pos hlt]
  split
  · rename_i hpos
    obtain ⟨s, t, k1, k2, e, k3, k4⟩ := F64.within_fin ht (by norm_num)
    show F64.le (F64.div (F64.sub z (Arith.ofInt w)) (Arith.ofInt st)) o.tolerance = false
    have hstq : (0 : Rat) < st := by exact_mod_cast hpos
    have hst2 : (st : Rat) ≤ 20000 := by
      have : st ≤ 20000 := le_trans (le_abs_self _) h3
      exact_mod_cast this
    rw [e, F64.ofInt_eq hw, F64.ofInt_eq hst]
    have hfin : ∀ (sg : Bool) (p : Rat) (a1 a2), (1020000 : Rat) ≤ p →
        F64.le (F64.div (F64.fin sg p a1 a2) (F64.fin (decide (st < 0)) st (F64.isDouble_int hst) (F64.int_signed st))) (.fin s t k1 k2) = false := by
      intro sg p a1 a2 hp
      have hq : F64.div (F64.fin sg p a1 a2) (F64.fin (decide (st < 0)) st (F64.isDouble_int hst) (F64.int_signed st)) =
          F64.pack (sg != decide (st < 0)) (p / st) := by
        show (if (st : Rat) = 0 then _ else _) = _
        rw [if_neg hstq.ne']
      rw [hq]
      cases hc : F64.le (F64.pack (sg != decide (st < 0)) (p / st)) (.fin s t k1 k2) with
      | false => rfl
      | true =>
        exfalso
        have h51 : (((51 : Int) : Rat)) ≤ p / st := by
          rw [le_div_iff₀ hstq]; push_cast; nlinarith
        have m := F64.le_trans' (F64.pack_mono h51 false (sg != decide (st < 0))) hc
        rw [← F64.ofInt_def, F64.ofInt_eq (by norm_num)] at m
        have := of_decide_eq_true m
        push_cast at this k4
        linarith
    cases z with
    | nan => cases hz
    | inf sg =>
      cases sg with
      | true => cases hz
      | false =>
        have : F64.div (F64.sub (.inf false) (.fin (decide (w < 0)) w (F64.isDouble_int hw) (F64.int_signed w)))
            (F64.fin (decide (st < 0)) st (F64.isDouble_int hst) (F64.int_signed st)) = .inf (false != decide (st < 0)) := rfl
        rw [this, decide_eq_false (by omega)]
        rfl
    | fin sg p a1 a2 =>
      have hp : (B + 1020000 : Rat) ≤ p := by
        have := of_decide_eq_true hz; push_cast at this; exact this
      have hd : ((1020000 : Int) : Rat) ≤ p + -(w : Rat) := by
        have h2' : (w : Rat) ≤ B := by exact_mod_cast h2
        push_cast
        linarith
      have hsub : F64.sub (.fin sg p a1 a2) (.fin (decide (w < 0)) w (F64.isDouble_int hw) (F64.int_signed w)) =
          F64.pack (sg && !decide (w < 0)) (p + -(w : Rat)) := rfl
      rw [hsub]
      have m := F64.pack_mono hd false (sg && !decide (w < 0))
      rw [← F64.ofInt_def, F64.ofInt_eq (by norm_num)] at m
      rcases F64.pack_cases (sg && !decide (w < 0)) (p + -(w : Rat)) with ⟨_, b1, b2, b3⟩ | ⟨_, b3⟩ | ⟨_, b3⟩
      · rw [b3] at m ⊢
        refine hfin _ _ _ _ ?_
        have := of_decide_eq_true m
        push_cast at this
        exact this
      · rw [b3]
        show F64.le (.inf (false != decide (st < 0))) (.fin s t k1 k2) = false
        rw [decide_eq_false (by omega)]
        rfl
      · rw [b3] at m; cases m
  · exact infinity_refused ht

/-- No line of a paragraph is acceptable for an ideal width less than that of each. -/
theorem noLine_below {o : Options F64} (ht : Within o.tolerance 50) {z : F64} {A : Int} (hA : |A| ≤ 2 ^ 53)
    (hz : F64.lt z (Arith.ofInt A) = true) (hB : B ≤ 2 ^ 53) : NoLine o z A B := by
  intro w st h1 h2 h3
  have hw : |w| ≤ 2 ^ 53 := by
    rw [abs_le] at hA ⊢
    omega
  have h1' : (A : Rat) ≤ w := by exact_mod_cast h1
  have e : ratioOf z w st = infinity := by
    rw [F64.ofInt_eq hA] at hz
    have e1 : Arith.lt (Arith.ofInt w) z = false := by
      show F64.lt (Arith.ofInt w) z = false
      rw [F64.ofInt_eq hw]
      cases z with
      | nan => cases hz
      | inf s => cases s <;> first | rfl | cases hz
      | fin s p k1 k2 =>
        have := of_decide_eq_true hz
        exact decide_eq_false (by linarith)
    have e2 : Arith.lt z (Arith.ofInt w) = true := by
      show F64.lt z (Arith.ofInt w) = true
      rw [F64.ofInt_eq hw]
      cases z with
      | nan => cases hz
      | inf s => cases s <;> first | rfl | cases hz
      | fin s p k1 k2 =>
        have := of_decide_eq_true hz
        exact decide_eq_true (by linarith)
    unfold ratioOf
    rw [e1, e2]
    rfl
  rw [e]
  exact infinity_refused ht

theorem refused_of {A : Int} (p : Paragraph rt env dict opts text n l tokens B) (h0 : tokens ≠ []) (hB : B ≤ 2 ^ 53)
    (hA : A ≤ 0 ∨ ∃ t r, paraSyms (splitterOf env dict (defaultOptions opts)) tokens = .part t :: r ∧ A ≤ text t)
    (hno : NoLine (defaultOptions opts) ((defaultOptions opts).scale maxWidth) A B) :
    ∃ l', leftAlignUniform rt env l tokens maxWidth = .ok (none, l') := by
  have hk := kept_used p.sane p.digits p.used
  obtain ⟨L, hL, hl⟩ := hk.plain
  have ho := hk.options
  have hsy : syms (parBlocks (splitterOf env dict (defaultOptions opts)) (tokens.map bare)) =
      paraSyms (splitterOf env dict (defaultOptions opts)) tokens := by
    rw [parBlocks_bare, syms_paraBlocks]
  have := align_refused (rt := rt) (hk.splits p.sane) (hk.setup p.sane) tokens _ (strips_all rt p.digits tokens p.escapeFree) h0 L hl
    maxWidth B (by rw [hsy]; exact p.width) hB A (by rw [hsy]; exact hA) (by rw [ho]; exact hno)
  exact ⟨_, this⟩

/-- **C79** fails: a width that exceeds that of the text by 1020000 or more, such as MaxFloat64 or +Inf, is an
error for any text, even if it is one word. -/
theorem C79_too_wide_fails (p : Paragraph rt env dict opts text n l tokens B) (h0 : tokens ≠ []) (hB0 : 0 ≤ B)
    (hB : B + 1020000 ≤ 2 ^ 53) (hs : (defaultOptions opts).scaleFactor = Arith.ofInt 1)
    (hx : Above maxWidth ((B : Rat) + 1020001)) :
    ∃ l', leftAlignUniform rt env l tokens maxWidth = .ok (none, l') := by
  refine refused_of (A := 0) p h0 (by omega) (Or.inl (le_refl _)) (noLine_above p.sane.tolerance hB ?_)
  rw [scale_one hs]
  have hi : |B + 1020000| ≤ 2 ^ 53 := by rw [abs_of_nonneg (by omega)]; exact hB
  rcases hx with rfl | ⟨q, ⟨s, k1, k2, rfl⟩, hq⟩
  · rw [F64.ofInt_eq hi]; rfl
  · show F64.le _ (F64.pack s (ratRound q)) = true
    rw [F64.ofInt_def]
    exact F64.pack_mono (ratRound_ge (by omega) (by push_cast; linarith)) _ _

/-- **C80** A width of at most minus half a column, or -Inf, is an error. -/
theorem C80_negative (p : Paragraph rt env dict opts text n l tokens B) (h0 : tokens ≠ []) (hB : B ≤ 2 ^ 53)
    (hs : (defaultOptions opts).scaleFactor = Arith.ofInt 1) (hx : maxWidth = .inf true ∨ ∃ q, IsValue maxWidth q ∧ q ≤ -1 / 2) :
    ∃ l', leftAlignUniform rt env l tokens maxWidth = .ok (none, l') := by
  refine refused_of (A := 0) p h0 hB (Or.inl (le_refl _)) (noLine_below p.sane.tolerance (by norm_num) ?_ hB)
  rw [scale_one hs]
  rcases hx with rfl | ⟨q, ⟨s, k1, k2, rfl⟩, hq⟩
  · rw [F64.ofInt_eq (by norm_num)]; rfl
  · show F64.lt (F64.pack s (ratRound q)) _ = true
    have m := F64.pack_mono (show ratRound q ≤ ((-1 : Int) : Rat) by push_cast; exact ratRound_neg hq) s false
    refine F64.lt_of_le' m ?_
    rw [← F64.ofInt_def, F64.ofInt_eq (n := -1) (by norm_num), F64.ofInt_eq (n := 0) (by norm_num)]
    exact decide_eq_true (p := ((-1 : Int) : Rat) < ((0 : Int) : Rat)) (by norm_num)

/-- **C80** A width less than half a column is an error for a text whose first part has a width. -/
theorem C80_below_half (p : Paragraph rt env dict opts text n l tokens B) (hB : B ≤ 2 ^ 53)
    (hs : (defaultOptions opts).scaleFactor = Arith.ofInt 1) (hx : Below maxWidth (1 / 2)) {t : List Rune} {r : List Sym}
    (hp : paraSyms (splitterOf env dict (defaultOptions opts)) tokens = .part t :: r) (ht : 0 < text t) :
    ∃ l', leftAlignUniform rt env l tokens maxWidth = .ok (none, l') := by
  have h0 : tokens ≠ [] := by rintro rfl; cases hp
  refine refused_of (A := 1) p h0 hB (Or.inr ⟨t, r, hp, ht⟩) (noLine_below p.sane.tolerance (by norm_num) ?_ hB)
  rw [scale_one hs]
  rcases hx with rfl | ⟨q, ⟨s, k1, k2, rfl⟩, hq⟩
  · rw [F64.ofInt_eq (by norm_num)]; rfl
  · show F64.lt (F64.pack s (ratRound q)) _ = true
    have m := F64.pack_mono (show ratRound q ≤ ((0 : Int) : Rat) by push_cast; exact ratRound_nonpos hq) s false
    refine F64.lt_of_le' m ?_
    rw [← F64.ofInt_def, F64.ofInt_eq (n := 0) (by norm_num), F64.ofInt_eq (n := 1) (by norm_num)]
    exact decide_eq_true (p := ((0 : Int) : Rat) < ((1 : Int) : Rat)) (by norm_num)

/-- **C80** fails: for a width that is not a number, any text that starts with a word is returned as one line, with
any scale factor. -/
theorem C80_nan_fails (p : Paragraph rt env dict opts text n l tokens B) (h0 : tokens ≠ []) (hf : tokens.head? ≠ some [])
    (hB : B ≤ 2 ^ 53) :
    ∃ l', leftAlignUniform rt env l tokens .nan = .ok (some [List.intercalate (List.replicate n 0x20) tokens], l') := by
  have hk := kept_used p.sane p.digits p.used
  obtain ⟨L, hL, hl⟩ := hk.plain
  have ho := hk.options
  have hsy : syms (parBlocks (splitterOf env dict (defaultOptions opts)) (tokens.map bare)) =
      paraSyms (splitterOf env dict (defaultOptions opts)) tokens := by
    rw [parBlocks_bare, syms_paraBlocks]
  have hu : Usual l.toOptions := ho ▸ usual_new p.sane
  have hstart : StartsWithPart (paraSyms (splitterOf env dict (defaultOptions opts)) tokens) := by
    obtain ⟨t, ts, rfl⟩ := List.exists_cons_of_ne_nil h0
    exact para_starts (lossless p.sane) t (by simpa using hf) ts
  obtain ⟨seg, h1, _, h3, h4⟩ := align_unordered (rt := rt) p.walks (hk.splits p.sane) (hk.setup p.sane) tokens _
    (strips_all rt p.digits tokens p.escapeFree) h0 L hl .nan (by rw [scale_nan]; exact unordered_nan) (List.replicate n 0x20)
    (by rw [ho]; exact pads_new p.sane) hu.tol (hu.tame (hk.setup p.sane)) (by rw [hsy]; exact hstart)
    (by rw [hsy]; exact le_trans p.width hB)
  rw [render_bare (hk.setup p.sane) _ tokens L hL _ [seg] [_] (.cons h1 .nil) (by simpa using h3)] at h4
  rw [hsy] at h4
  simp only [List.map_cons, List.map_nil, Line.text, List.append_nil, lineText_joined (lossless (env := env) (dict := dict) p.sane)] at h4
  exact ⟨_, h4⟩

end

/-! ## The default options -/

section
variable {rt : Runtime} {env : Env} {dict : Dictionary} {tokens : List (List Rune)} {l : LineBreaker F64} {maxWidth : F64}

theorem paragraph_default (hu : Used env dict [] l) (hw : Walks rt) (hd : AsciiDigits env) (h : Ordinary tokens 0) :
    Paragraph rt env dict [] defaultText 1 l tokens (defaultText (List.intercalate [0x20] tokens) + 1) := by
  refine ⟨hu, sane_default, hw, hd, h.escapeFree, ?_⟩
  have hl := lossless (env := env) (dict := dict) (sane_default (F := F64))
  obtain ⟨t1, t2⟩ := text_body hl (sumOf_default h) (measureOf (defaultOptions ([] : List (Opt F64))) defaultText)
    (measureOf_text _ _) (measureOf_space _ _)
    (paraSyms (splitterOf env dict (defaultOptions ([] : List (Opt F64)))) tokens) (fun _ h => h)
  rw [← t2, ← sumOf_default h _ t1, lineText_joined hl]
  have e : (measureOf (defaultOptions ([] : List (Opt F64))) defaultText).hyphen = 1 := by
    show (if true = true then defaultText [0x2D] else 0) = 1
    rw [defaultText_hyphen]; rfl
  rw [e]

/-- **C79**, up to 4997 columns: a text that fits is set, on one line. Missing: larger limits; see C69 for up to 86000, and
C79_default_fails. -/
theorem C79_default_partial {q : Rat} {W : Int} (hu : Used env dict [] l) (hw : Walks rt) (hd : AsciiDigits env)
    (h : Ordinary tokens W) (h0 : tokens ≠ []) (hf : tokens.head? ≠ some []) (hx : IsValue maxWidth q) (hW : 0 < W)
    (hn : W ≤ 4997) (h1 : (W : Rat) - 1 / 2 ≤ q) (h2 : q < W + 1 / 2)
    (ht : (defaultText (List.intercalate [0x20] tokens) : Rat) ≤ q) :
    ∃ l', leftAlignUniform rt env l tokens maxWidth = .ok (some [List.intercalate [0x20] tokens], l') := by
  have hs : l.scaleFactor = Arith.ofInt 1 := by
    rw [(kept_used (sane_default (F := F64)) hd hu).options]; rfl
  rw [C78_nearest tokens hs hx hW (by omega) h1 h2]
  refine C55_default hu hw hd h hW hn h0 hf ?_
  have : (defaultText (List.intercalate [0x20] tokens) : Rat) < ((W + 1 : Int) : Rat) := by push_cast; linarith
  have : defaultText (List.intercalate [0x20] tokens) < W + 1 := by exact_mod_cast this
  omega

/-- **C79** fails with the default options: any text of less than a million columns is refused in lines of two millions. -/
theorem C79_default_fails (hu : Used env dict [] l) (hw : Walks rt) (hd : AsciiDigits env) (h : Ordinary tokens 0)
    (h0 : tokens ≠ []) (ht : defaultText (List.intercalate [0x20] tokens) ≤ 900000) (hx : Above maxWidth 2000000) :
    ∃ l', leftAlignUniform rt env l tokens maxWidth = .ok (none, l') := by
  have hn := defaultText_nonneg (List.intercalate [0x20] tokens)
  refine C79_too_wide_fails (paragraph_default hu hw hd h) h0 (by omega) (by omega) rfl ?_
  rcases hx with hx | ⟨q, h1, h2⟩
  · exact Or.inl hx
  · refine Or.inr ⟨q, h1, ?_⟩
    have : (defaultText (List.intercalate [0x20] tokens) : Rat) ≤ 900000 := by exact_mod_cast ht
    push_cast
    linarith

/-- **C80** fails with the default options: the text is returned as one line if the width is not a number. -/
theorem C80_default_fails (hu : Used env dict [] l) (hw : Walks rt) (hd : AsciiDigits env) (h : Ordinary tokens 0)
    (h0 : tokens ≠ []) (hf : tokens.head? ≠ some []) :
    ∃ l', leftAlignUniform rt env l tokens .nan = .ok (some [List.intercalate [0x20] tokens], l') :=
  C80_nan_fails (paragraph_default hu hw hd h) h0 hf (by have := h.exact; simp at this; omega)

end

end Verif.Props
