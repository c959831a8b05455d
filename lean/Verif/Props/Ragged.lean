import Verif.Props.Pieces
import Verif.Props.Float64Cases
import Verif.Proofs.LBRagged

/-! # C97 and C98: lines are not too short; removing words at the end -/

set_option linter.unusedSectionVars false

namespace Verif.Props
open Verif.Go Verif.Model Verif.Model.LB Verif.Spec Verif.Spec.Ansi Verif.Spec.LB Verif.Proofs Verif.Proofs.LB

section
variable {F : Type} [Arith F] [Laws F] {rt rt' : Runtime} {env : Env} {dict : Dictionary} {opts : List (Opt F)}
  {text : List Rune → Int} {n : Nat} {l l' l₂ : LineBreaker F} {tokens : List (List Rune)} {maxWidth : F} {W : Int}
  {lines : List (List Rune)}

theorem call_bound (c : Call rt env dict opts text n l tokens maxWidth W) : W ≤ Laws.bound F := by
  have h1 := c.exact
  have h2 := lineWidth_nonneg (setup_new (env := env) (dict := dict) c.sane)
    (paraSyms (splitterOf env dict (defaultOptions opts)) tokens)
  have h3 := (measure_hyphen c.sane).1
  have := le_abs_self W
  omega

/-- The space left on a line that does not end the paragraph. -/
theorem space_inside (env : Env) (dict : Dictionary) (hs : Sane (defaultOptions opts) text n) (hb : W ≤ Laws.bound F) {B : Int}
    (hB : Arith.le (Arith.div (Arith.ofInt (B + 1)) (Arith.ofInt 6)) (defaultOptions opts).tolerance = false) (hB0 : 0 ≤ B)
    {f : Bool} {p : List Sym} {s : Sym}
    (h : Acceptable (measureOf (defaultOptions opts) text) W (Tolerated (defaultOptions opts)) f p (some s)) :
    W - B ≤ lineWidth (measureOf (defaultOptions opts) text) p + endWidth (measureOf (defaultOptions opts) text) (some s) := by
  rcases h with h | ⟨h1, h2, h3⟩
  · omega
  · rw [stretch_inside h2] at h3
    by_contra hlt
    have hp := lineWidth_nonneg (setup_new (env := env) (dict := dict) hs) p
    have he := (endWidth_nonneg (measure_hyphen hs).1 (some s)).1
    have hbig : (6 : Int) ≤ Laws.bound F := _root_.le_trans (by decide) (Laws.bound_large (F := F))
    have := Laws.le_trans _ _ _ (Laws.div_mono (F := F) (B + 1)
      (W - (lineWidth (measureOf (defaultOptions opts) text) p + endWidth (measureOf (defaultOptions opts) text) (some s)))
      6 6 (by omega) (by omega) (by omega) (by decide) (le_refl _) hbig) h3
    rw [hB] at this
    cases this

theorem inner_space (c : Call rt env dict opts text n l tokens maxWidth W) {B : Int}
    (hB : Arith.le (Arith.div (Arith.ofInt (B + 1)) (Arith.ofInt 6)) (defaultOptions opts).tolerance = false) (hB0 : 0 ≤ B)
    {f : Bool} {p : List Sym} {s : Sym}
    (h : Acceptable (measureOf (defaultOptions opts) text) W (Tolerated (defaultOptions opts)) f p (some s)) :
    W - B ≤ lineWidth (measureOf (defaultOptions opts) text) p + endWidth (measureOf (defaultOptions opts) text) (some s) :=
  space_inside env dict c.sane (call_bound c) hB hB0 h

/-- The measured text of a line, from its symbols. -/
theorem text_inside {ss : List Sym} (hc : chars ss = joined tokens)
    (hsoft : (defaultOptions opts).wordBreak = false → .soft ∉ ss) {wd : Rune → Int} (hwd : SumOf text tokens wd)
    {x : Line} {s : Sym} (hb : ∀ s ∈ x.body, s ∈ ss) (hs : s ∈ ss)
    (he : x.ending = hyphenAt (defaultOptions opts) s ∨ (s = .gap ∧ x.ending = [])) :
    text (Line.text [0x20] x) = lineWidth (measureOf (defaultOptions opts) text) x.body +
      endWidth (measureOf (defaultOptions opts) text) (some s) := by
  obtain ⟨t1, t2⟩ := text_syms hc hwd (measureOf (defaultOptions opts) text) rfl rfl x.body hb
  show text (lineText [0x20] x.body ++ x.ending) = _
  by_cases hcut : s = .soft ∧ (defaultOptions opts).renderHyphens = true
  · obtain ⟨rfl, hr⟩ := hcut
    have hbr : (defaultOptions opts).wordBreak = true := by
      by_contra hb
      exact hsoft (by simpa using hb) hs
    have e' : x.ending = [0x2D] := by
      rcases he with e | ⟨e, _⟩
      · rw [e]; simp [hyphenAt, hr]
      · cases e
    have hend : endWidth (measureOf (defaultOptions opts) text) (some .soft) = text [0x2D] := by
      simp [endWidth, measureOf, hr, hbr]
    have hall : ∀ r ∈ lineText [0x20] x.body ++ [0x2D], r = 0x20 ∨ r = 0x2D ∨ ∃ u ∈ tokens, r ∈ u := by
      intro r hr
      rw [List.mem_append, List.mem_singleton] at hr
      rcases hr with hr | hr
      · exact t1 r hr
      · exact Or.inr (Or.inl hr)
    rw [e', hend, hwd _ hall, List.map_append, List.sum_append, t2, ← hwd [0x2D] (by simp)]
  · have e' : x.ending = [] := by
      rcases he with e | ⟨_, e⟩
      · rw [e]
        cases s with
        | soft => simp only [true_and] at hcut; simp [hyphenAt, hcut]
        | _ => rfl
      · exact e
    have e0 : endWidth (measureOf (defaultOptions opts) text) (some s) = 0 := by
      cases s with
      | soft =>
        simp only [true_and] at hcut
        simp only [endWidth]
        rw [if_neg (show ¬ (measureOf (defaultOptions opts) text).addHyphens = true from hcut)]
      | _ => rfl
    rw [e', List.append_nil, e0, hwd _ t1, t2, add_zero]

theorem inner_text (c : Call rt env dict opts text 1 l tokens maxWidth W) {wd : Rune → Int} (hwd : SumOf text tokens wd)
    {x : Line} {s : Sym} (hb : ∀ s ∈ x.body, s ∈ paraSyms (splitterOf env dict (defaultOptions opts)) tokens)
    (hs : s ∈ paraSyms (splitterOf env dict (defaultOptions opts)) tokens)
    (he : x.ending = hyphenAt (defaultOptions opts) s ∨ (s = .gap ∧ x.ending = [])) :
    text (Line.text [0x20] x) = lineWidth (measureOf (defaultOptions opts) text) x.body +
      endWidth (measureOf (defaultOptions opts) text) (some s) :=
  text_inside (para_chars (lossless (env := env) (dict := dict) c.sane) tokens)
    (fun h => (para_whole (splitterOf env dict (defaultOptions opts)) h tokens).1) hwd hb hs he

/-! ## C97 -/

/-- **C97.** Every line but the last leaves at most `B` columns free, when a space of `B + 1` columns would exceed the
tolerance. -/
theorem C97_not_too_short (c : Call rt env dict opts text 1 l tokens maxWidth W) (hW : 0 < W)
    (hf : tokens.head? ≠ some []) (ho : (defaultOptions opts).renderHyphens = true → OwnPenalty (defaultOptions opts))
    (wd : Rune → Int) (hwd : SumOf text tokens wd) (B : Int) (hB0 : 0 ≤ B)
    (hB : Arith.le (Arith.div (Arith.ofInt (B + 1)) (Arith.ofInt 6)) (defaultOptions opts).tolerance = false)
    (h : leftAlignUniform rt env l tokens maxWidth = .ok (some lines, l')) : ∀ line ∈ lines.dropLast, W - B ≤ text line := by
  obtain ⟨ls, h1, rfl⟩ := C57_hyphens_at_cuts c hW hf ho h
  intro line hline
  rw [← List.map_dropLast] at hline
  obtain ⟨x, hx, rfl⟩ := List.mem_map.mp hline
  obtain ⟨g1, f, s, g2, g3, g4, g5⟩ := layout_inner h1 x hx
  have := inner_text c hwd g1 g3 g5
  have h2 := inner_space c hB hB0 g2
  show W - B ≤ text (Line.text [0x20] x)
  omega

/-- All lines of a layout but one hold at least `W - B` columns, hyphens included. -/
theorem layout_count (env : Env) (dict : Dictionary) (hs : Sane (defaultOptions opts) text n) (hb : W ≤ Laws.bound F) {B : Int}
    (hB0 : 0 ≤ B) (hB : Arith.le (Arith.div (Arith.ofInt (B + 1)) (Arith.ofInt 6)) (defaultOptions opts).tolerance = false)
    {hy : Sym → List Rune} {ss : List Sym} {ls : List Line}
    (h1 : Layout hy (Acceptable (measureOf (defaultOptions opts) text) W (Tolerated (defaultOptions opts))) false true ss ls) :
    ((ls.length : Int) - 1) * (W - B - text [0x2D]) ≤ lineWidth (measureOf (defaultOptions opts) text) ss := by
  have htot := layout_total (m := measureOf (defaultOptions opts) text) (hs.nonneg [0x20]) h1
  refine _root_.le_trans ?_ htot
  have hnn := lineWidth_nonneg (setup_new (env := env) (dict := dict) hs)
  have hin := layout_inner h1
  have hne := layout_lines_ne h1
  clear htot h1
  obtain ⟨init, x, rfl⟩ : ∃ init x, ls = init ++ [x] := ⟨_, _, (List.dropLast_append_getLast hne).symm⟩
  rw [List.dropLast_concat] at hin
  rw [List.length_append, List.map_append, List.sum_append]
  have hx := hnn x.body
  have key : (init.length : Int) * (W - B - text [0x2D]) ≤
      (init.map (fun x => lineWidth (measureOf (defaultOptions opts) text) x.body)).sum := by
    clear hne
    induction init with
    | nil => simp
    | cons y ys ih =>
      have ih' := ih (fun z hz => hin z (by simp [hz]))
      obtain ⟨_, f, s, g2, _⟩ := hin y (by simp)
      have h2 := space_inside env dict hs hb hB hB0 g2
      have h3 := (endWidth_nonneg (measure_hyphen hs).1 (some s)).2
      have h4 := (measure_hyphen hs).2
      rw [List.length_cons, List.map_cons, List.sum_cons]
      push_cast
      rw [add_mul, one_mul]
      omega
  simp only [List.length_cons, List.length_nil, List.map_cons, List.map_nil, List.sum_cons, List.sum_nil]
  push_cast
  have e : (init.length : Int) + 1 - 1 = init.length := by omega
  try rw [zero_add]
  rw [e]
  omega

/-- **C97.** The number of lines: all of them but one hold at least `W - B` columns, hyphens included. -/
theorem C97_number_of_lines (c : Call rt env dict opts text 1 l tokens maxWidth W) (hW : 0 < W)
    (hf : tokens.head? ≠ some []) (wd : Rune → Int) (hwd : SumOf text tokens wd) (B : Int) (hB0 : 0 ≤ B)
    (hB : Arith.le (Arith.div (Arith.ofInt (B + 1)) (Arith.ofInt 6)) (defaultOptions opts).tolerance = false)
    (h : leftAlignUniform rt env l tokens maxWidth = .ok (some lines, l')) :
    ((lines.length : Int) - 1) * (W - B - text [0x2D]) ≤ text (List.intercalate [0x20] tokens) := by
  have hl := lossless (env := env) (dict := dict) c.sane
  obtain ⟨ls, h1, rfl⟩ := call_lines c hW hf h
  have htot := layout_count env dict c.sane (call_bound c) hB0 hB h1
  obtain ⟨t1, t2⟩ := text_body hl hwd (measureOf (defaultOptions opts) text) rfl rfl
    (paraSyms (splitterOf env dict (defaultOptions opts)) tokens) (fun _ h => h)
  rw [← t2, ← hwd _ t1, lineText_joined hl] at htot
  rw [List.length_map]
  exact htot

/-- In float64, a space of 52 columns exceeds the default tolerance. -/
theorem space_64 : Arith.le (Arith.div (Arith.ofInt (51 + 1) : F64) (Arith.ofInt 6)) (defaultOptions ([] : List (Opt F64))).tolerance = false := by
  show Arith.le (Arith.div (Arith.ofInt 52 : F64) (Arith.ofInt 6)) (Arith.tenths 86) = false
  decide +kernel

/-- **C97**, with the default options in float64: every line but the last leaves at most 51 columns free, and all lines
but one hold at least `W - 52` columns of the text. -/
theorem C97_default {l l' : LineBreaker F64} (hu : Used env dict [] l) (hw : Walks rt) (hd : AsciiDigits env)
    (h : Ordinary tokens W) (hW : 0 < W) (hf : tokens.head? ≠ some [])
    (hr : leftAlignUniform rt env l tokens (Arith.ofInt W : F64) = .ok (some lines, l')) :
    (∀ line ∈ lines.dropLast, W - 51 ≤ defaultText line) ∧
      ((lines.length : Int) - 1) * (W - 52) ≤ defaultText (List.intercalate [0x20] tokens) := by
  have c := call_default hu hw hd h
  refine ⟨C97_not_too_short c hW hf (fun _ => own_default) _ (sumOf_default h) 51 (by decide) space_64 hr, ?_⟩
  have := C97_number_of_lines c hW hf _ (sumOf_default h) 51 (by decide) space_64 hr
  rw [defaultText_hyphen] at this
  have e : W - 52 = W - 51 - 1 := by omega
  rw [e]
  exact this

/-! ## C98 -/

/-- **C98.** A paragraph that is set is still set without its last words. -/
theorem C98_first_words {kept removed : List (List Rune)} (c : Call rt env dict opts text n l (kept ++ removed) maxWidth W)
    (c' : Call rt' env dict opts text n l₂ kept maxWidth W) (hW : 0 < W) (h0 : kept ≠ []) (hne : ∀ w ∈ kept, w ≠ [])
    (τ : Int) (hτ : Arith.le (Arith.tenths τ) (defaultOptions opts).tolerance = true) (hn : 10 * W ≤ 9994 * τ)
    (h : ∃ lines l', leftAlignUniform rt env l (kept ++ removed) maxWidth = .ok (some lines, l')) :
    ∃ lines l', leftAlignUniform rt' env l₂ kept maxWidth = .ok (some lines, l') := by
  have hl := lossless (env := env) (dict := dict) c.sane
  have hf : kept.head? ≠ some [] := by
    obtain ⟨t, ts, rfl⟩ := List.exists_cons_of_ne_nil h0
    simpa using hne t (by simp)
  have hf' : (kept ++ removed).head? ≠ some [] := by
    obtain ⟨t, ts, rfl⟩ := List.exists_cons_of_ne_nil h0
    simpa using hne t (by simp)
  have hset := (C52_set_iff c hW (by simp [h0]) hf').1.mp h
  refine (C52_set_iff c' hW h0 hf).1.mpr ?_
  by_cases hr : removed = []
  · subst hr
    rw [List.append_nil] at hset
    exact hset
  obtain ⟨ls, hls⟩ := hset
  have hb := call_bound c
  have hbig : (10000 : Int) ≤ Laws.bound F := _root_.le_trans (by decide) (Laws.bound_large (F := F))
  refine layout_prefix (lineWidth_nonneg (setup_new (env := env) (dict := dict) c.sane)) (measure_hyphen c.sane).1 ?_ hls _ _ _
    (para_append _ kept removed h0 hr) ?_ ?_
  · intro d s h1 h2 hs
    refine Laws.le_trans _ _ _ (Laws.div_tenths _ _ τ (by omega) (by omega) ?_ ?_ ?_) hτ
    · rcases hs with rfl | rfl <;> decide
    · rcases hs with rfl | rfl <;> omega
    · rcases hs with rfl | rfl <;> omega
  · obtain ⟨t, ts, rfl⟩ := List.exists_cons_of_ne_nil h0
    exact para_starts hl t (hne t (by simp)) ts
  · clear hls h c c' hf hf'
    induction kept with
    | nil => exact absurd rfl h0
    | cons t ts ih =>
      have hng : .gap ∉ tokenSyms (splitterOf env dict (defaultOptions opts)) t := by
        intro hg
        have : Ch.gap ∈ chars (tokenSyms (splitterOf env dict (defaultOptions opts)) t) := by
          unfold chars
          rw [List.mem_flatMap]
          exact ⟨_, hg, by simp [symCh]⟩
        rw [(token_token hl t (hne t (by simp))).2] at this
        simp at this
      intro u v huv
      cases ts with
      | nil => exact absurd (by rw [paraSyms] at huv; rw [huv]; simp) hng
      | cons w ws =>
        rw [paraSyms] at huv
        · rcases List.append_eq_append_iff.mp huv with ⟨a', h1, h2⟩ | ⟨c', h1, h2⟩
          · rcases a' with _ | ⟨x, a'⟩
            · simp only [List.nil_append, List.cons.injEq, true_and] at h2
              obtain ⟨p, q, e⟩ := para_starts hl w (hne w (by simp)) ws
              exact ⟨p, by rw [← h2, e]; simp⟩
            · simp only [List.cons_append, List.cons.injEq] at h2
              obtain ⟨rfl, h2⟩ := h2
              exact ih (by simp) (fun x hx => hne x (by simp at hx ⊢; tauto)) a' v h2
          · rcases c' with _ | ⟨x, c'⟩
            · simp only [List.nil_append, List.cons.injEq, true_and] at h2
              obtain ⟨p, q, e⟩ := para_starts hl w (hne w (by simp)) ws
              exact ⟨p, by rw [h2, e]; simp⟩
            · simp only [List.cons_append, List.cons.injEq] at h2
              obtain ⟨rfl, h2⟩ := h2
              exact absurd (by rw [h1]; simp) hng
        · intro e; cases e

/-- **C98**, with the default options. -/
theorem C98_default {kept removed : List (List Rune)} (hu : Used env dict [] l) (hu' : Used env dict [] l₂) (hw : Walks rt)
    (hw' : Walks rt') (hd : AsciiDigits env) (h : Ordinary (kept ++ removed) W) (h' : Ordinary kept W) (hW : 0 < W)
    (hn : W ≤ 85900) (h0 : kept ≠ []) (hne : ∀ w ∈ kept, w ≠ [])
    (hs : ∃ lines l', leftAlignUniform rt env l (kept ++ removed) (Arith.ofInt W : F) = .ok (some lines, l')) :
    ∃ lines l', leftAlignUniform rt' env l₂ kept (Arith.ofInt W : F) = .ok (some lines, l') :=
  C98_first_words (call_default hu hw hd h) (call_default hu' hw' hd h') hW h0 hne 86 (Laws.tenths_le _ _ (by decide))
    (by omega) hs

end

/-! ## Cases -/

local instance raggedLaws : Laws Rat := ratLaws (2 ^ 53) (le_refl _)

/-- Four words in lines of 60 columns. -/
def raggedWords : List (List Rune) := [List.replicate 9 0x7A, List.replicate 60 0x7A, List.replicate 30 0x7A, List.replicate 31 0x7A]

theorem ragged_call (k : Nat) (hk : k ≤ 4) :
    Call forward Env.ascii (dictOf sampleLines) [unit] demoText 1 (demo []) (raggedWords.take k) (Arith.ofInt 60 : Rat) 60 := by
  refine unit_call [] (sane_unit _ rfl rfl rfl ⟨by decide +kernel, by decide +kernel⟩ rfl rfl) rfl ?_ ?_
  · have : ∀ k : Fin 5, ∀ t ∈ raggedWords.take k, (t.length : Int) < 2 ^ 63 ∧ (0x1B : Rune) ∉ t := by decide +kernel
    exact this ⟨k, by omega⟩
  · have : ∀ k : Fin 5, ((List.intercalate [0x20] (raggedWords.take k)).length : Int) + 1 + |60| ≤ 2 ^ 53 := by decide +kernel
    exact this ⟨k, by omega⟩

theorem ragged_lines : ∃ l', leftAlignUniform forward Env.ascii (demo []) raggedWords (Arith.ofInt 60) =
    .ok (some raggedWords, l') := by
  have h : linesOf forward (demo []) ([9, 60, 30, 31].map (fun n => String.ofList (List.replicate n 'z'))) (Arith.ofInt 60) =
      .ok (some raggedWords) := by decide +kernel
  have e : ([9, 60, 30, 31].map (fun n => String.ofList (List.replicate n 'z'))).map runesOf = raggedWords := by decide +kernel
  have := linesOf_ok h
  rw [e] at this
  exact this

example : ∀ line ∈ raggedWords.dropLast, (60 : Int) - 51 ≤ demoText line := by
  obtain ⟨_, h⟩ := ragged_lines
  exact C97_not_too_short (ragged_call 4 (by decide)) (by decide) (by decide +kernel)
    (fun _ => ⟨by decide +kernel, by decide +kernel, by decide +kernel, by decide +kernel⟩) (fun _ => 1) (sumOf_demo _) 51
    (by decide) (by decide +kernel) h

example : ((raggedWords.length : Int) - 1) * (60 - 51 - demoText [0x2D]) ≤ demoText (List.intercalate [0x20] raggedWords) := by
  obtain ⟨_, h⟩ := ragged_lines
  exact C97_number_of_lines (ragged_call 4 (by decide)) (by decide) (by decide +kernel) (fun _ => 1) (sumOf_demo _) 51 (by decide)
    (by decide +kernel) h

/-- The first line leaves exactly 51 columns free. -/
example : (60 : Int) - 51 = demoText (List.replicate 9 0x7A) := by decide

example : ∃ lines l', leftAlignUniform forward Env.ascii (demo []) (raggedWords.take 3) (Arith.ofInt 60) = .ok (some lines, l') :=
  C98_first_words (kept := raggedWords.take 3) (removed := raggedWords.drop 3) (ragged_call 4 (by decide)) (ragged_call 3 (by decide))
    (by decide) (by decide +kernel) (by decide +kernel) 86 (by decide +kernel) (by decide) ⟨_, ragged_lines⟩

/-- Removing words at the start may hurt: without the first of three words, the second one is too short for a line. -/
example : linesOf forward (demo []) [String.ofList (List.replicate 50 'z'), "zzz", String.ofList (List.replicate 60 'z')] 60 =
      .ok (some [List.replicate 50 0x7A ++ runesOf " zzz", List.replicate 60 0x7A]) ∧
    linesOf forward (demo []) ["zzz", String.ofList (List.replicate 60 'z')] 60 = .ok none := by decide +kernel

end Verif.Props
