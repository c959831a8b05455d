import Verif.Props.Fit
import Verif.Proofs.LBIndent

/-! # C54, C94: paragraphs that start with empty words

A paragraph of `strings.Split(text, " ")` starts with empty words when the text is indented. -/

namespace Verif.Props
open Verif.Go Verif.Model Verif.Model.LB Verif.Spec Verif.Spec.Ansi Verif.Spec.LB Verif.Proofs Verif.Proofs.LB

section
variable {F : Type} [Arith F] [Laws F] {rt : Runtime} {env : Env} {dict : Dictionary} {opts : List (Opt F)}
  {text : List Rune → Int} {n : Nat} {l : LineBreaker F} {tokens : List (List Rune)} {maxWidth : F} {W : Int}
  {k : Nat} {t : List Rune} {ts : List (List Rune)}

/-- **C94**, for paragraphs that start with `k` empty words, when no line of empty words is acceptable as the first one.
There is no panic. The empty words are not set, but the first line has lost its stretch to them (unless it is the last
one) and `indentGaps` spaces are counted in its width: lines are returned if and only if there are acceptable ones,
which is not the case of every text that can be set without the empty words (see `C94_indented_fails`). -/
theorem C94_indented_partial (c : Call rt env dict opts text n l (List.replicate k [] ++ t :: ts) maxWidth W) (hW : 0 < W)
    (ht : t ≠ []) (hk : 0 < k)
    (hno : NoBlankFirst (measureOf (defaultOptions opts) text) W (Tolerated (defaultOptions opts)) k
      (paraSyms (splitterOf env dict (defaultOptions opts)) (t :: ts))) :
    let ss := paraSyms (splitterOf env dict (defaultOptions opts)) (t :: ts)
    let m := measureOf (defaultOptions opts) text
    let P := AcceptableIn (indentLoss k ss) (indentGaps k ss * m.space) m W (Tolerated (defaultOptions opts))
    ∃ l', ((¬ ∃ ls, Layout (fun _ => []) P false true ss ls) ∧
        leftAlignUniform rt env l (List.replicate k [] ++ t :: ts) maxWidth = .ok (none, l')) ∨
      ∃ hy ls, Layout hy P false true ss ls ∧ (∀ s, hy s = [] ∨ hy s = [0x2D]) ∧
        leftAlignUniform rt env l (List.replicate k [] ++ t :: ts) maxWidth =
          .ok (some (ls.map (Line.text (List.replicate n 0x20))), l') := by
  intro ss m P
  obtain ⟨l', h | ⟨_, ls, h1, h2⟩⟩ := call_indented c hW ht hk hno
  · exact ⟨l', Or.inl h⟩
  · exact ⟨l', Or.inr ⟨_, ls, h1, hyOf_cases, h2⟩⟩

/-- Lines of empty words are not acceptable when they have no stretch and are narrow. -/
theorem noBlank_loss {m : Measure} {ok : Int → Int → Prop} {p : List Sym} (hW : 0 < W) (hs : 0 ≤ m.space)
    (hr : (2 * k + openMark p) % 3 ≠ 0) (hn : (indentGaps k p : Int) * m.space ≤ W) : NoBlankFirst m W ok k p := by
  intro j hj h
  have e : indentLoss k p = 6 := by unfold indentLoss; rw [if_neg hr]
  rw [e] at h
  rcases h with h | ⟨_, h, _⟩
  · have h1 : ((j : Int) + 1) * m.space ≤ (indentGaps k p : Int) * m.space :=
      mul_le_mul_of_nonneg_right (by omega) hs
    rw [Int.add_mul, Int.one_mul] at h1
    have h0 : m.space = 0 := by omega
    rw [h0, Int.mul_zero] at h
    omega
  · omega

/-- They are not acceptable either when the lines are wide. -/
theorem noBlank_wide {o : Options F} {m : Measure} {p : List Sym} (hs : 0 ≤ m.space) (τ : Int) (hτ : 0 < τ)
    (ho : Arith.lt o.tolerance (Arith.tenths τ) = true) {N : Nat} (hB : W ≤ Laws.bound F)
    (hn : 6 * τ ≤ 10 * (W - (N : Int) * m.space)) (j : Nat) (hj : j ≤ N) :
    (j : Int) * m.space < W ∧ ¬ Tolerated o (W - j * m.space) 6 := by
  have h1 : (j : Int) * m.space ≤ (N : Int) * m.space := mul_le_mul_of_nonneg_right (by omega) hs
  have h0 : 0 ≤ (j : Int) * m.space := mul_nonneg (by omega) hs
  refine ⟨by omega, fun h => ?_⟩
  have hb : (6 : Int) ≤ Laws.bound F := _root_.le_trans (by decide) (Laws.bound_large (F := F))
  have h2 := Laws.tenths_div (F := F) (W - j * m.space) 6 τ (by omega) (by omega) (by decide) hb (by omega)
  have h3 := Laws.le_trans _ _ _ h2 h
  rw [Laws.le_of_lt _ _ ho] at h3
  cases h3

theorem noBlank_of_wide {o : Options F} {m : Measure} {p : List Sym} (hs : 0 ≤ m.space) (τ : Int) (hτ : 0 < τ)
    (ho : Arith.lt o.tolerance (Arith.tenths τ) = true) {N : Nat} (hB : W ≤ Laws.bound F)
    (hn : 6 * τ ≤ 10 * (W - (N : Int) * m.space)) (hk : k ≤ N) : NoBlankFirst m W (Tolerated o) k p := by
  intro j hj h
  have hjN : j ≤ N := by unfold indentGaps at hj; omega
  obtain ⟨h1, h2⟩ := noBlank_wide (p := p) hs τ hτ ho hB hn j hjN
  rcases h with h | ⟨_, h3, h4⟩
  · omega
  · unfold indentLoss at h3 h4
    split at h4
    · exact h2 h4
    · rw [if_neg (by assumption)] at h3; omega

theorem space_nonneg (c : Call rt env dict opts text n l tokens maxWidth W) :
    0 ≤ (measureOf (defaultOptions opts) text).space := (setup_new (env := env) (dict := dict) c.sane).space_nonneg

theorem width_bound (c : Call rt env dict opts text n l tokens maxWidth W) : W ≤ Laws.bound F := by
  have h1 := c.exact
  have h2 := lineWidth_nonneg (setup_new (env := env) (dict := dict) c.sane)
    (paraSyms (splitterOf env dict (defaultOptions opts)) tokens)
  have h3 := (setup_new (env := env) (dict := dict) c.sane).hyphen_nonneg
  have h4 : W ≤ |W| := le_abs_self W
  omega

/-- **C54**: two empty words in three make no panic, in any width that holds the spaces counted. -/
theorem C54_indent_narrow_partial (c : Call rt env dict opts text n l (List.replicate k [] ++ t :: ts) maxWidth W)
    (hW : 0 < W) (ht : t ≠ []) (hk : 0 < k)
    (hr : (2 * k + openMark (paraSyms (splitterOf env dict (defaultOptions opts)) (t :: ts))) % 3 ≠ 0)
    (hn : (indentGaps k (paraSyms (splitterOf env dict (defaultOptions opts)) (t :: ts)) : Int) *
      (measureOf (defaultOptions opts) text).space ≤ W) :
    ∃ r, leftAlignUniform rt env l (List.replicate k [] ++ t :: ts) maxWidth = .ok r := by
  obtain ⟨l', ⟨_, h⟩ | ⟨_, _, _, _, h⟩⟩ := C94_indented_partial c hW ht hk (noBlank_loss hW (space_nonneg c) hr hn)
  · exact ⟨_, h⟩
  · exact ⟨_, h⟩

/-- **C94.** An indented paragraph that fits in one line, with the spaces counted, is set. -/
theorem C94_fits_partial (c : Call rt env dict opts text n l (List.replicate k [] ++ t :: ts) maxWidth W)
    (hW : 0 < W) (ht : t ≠ []) (hk : 0 < k) (hnarrow : W ≤ 4997)
    (hto : Arith.le (Arith.tenths 5) (defaultOptions opts).tolerance = true)
    (hno : NoBlankFirst (measureOf (defaultOptions opts) text) W (Tolerated (defaultOptions opts)) k
      (paraSyms (splitterOf env dict (defaultOptions opts)) (t :: ts)))
    (hfit : lineWidth (measureOf (defaultOptions opts) text) (paraSyms (splitterOf env dict (defaultOptions opts)) (t :: ts)) +
      (indentGaps k (paraSyms (splitterOf env dict (defaultOptions opts)) (t :: ts)) : Int) *
        (measureOf (defaultOptions opts) text).space ≤ W) :
    ∃ lines l', leftAlignUniform rt env l (List.replicate k [] ++ t :: ts) maxWidth = .ok (some lines, l') := by
  obtain ⟨l', ⟨h, _⟩ | ⟨_, ls, _, _, h⟩⟩ := C94_indented_partial c hW ht hk hno
  · exfalso
    refine h ⟨_, Layout.last _ (para_starts (lossless c.sane) t ht ts) ?_⟩
    have hnn := lineWidth_nonneg (setup_new (env := env) (dict := dict) c.sane)
      (paraSyms (splitterOf env dict (defaultOptions opts)) (t :: ts))
    have hg : 0 ≤ (indentGaps k (paraSyms (splitterOf env dict (defaultOptions opts)) (t :: ts)) : Int) *
        (measureOf (defaultOptions opts) text).space := mul_nonneg (by omega) (space_nonneg c)
    have hl : indentLoss k (paraSyms (splitterOf env dict (defaultOptions opts)) (t :: ts)) = 0 ∨
        indentLoss k (paraSyms (splitterOf env dict (defaultOptions opts)) (t :: ts)) = 6 := by
      unfold indentLoss; split <;> simp
    have hb : (10000 : Int) ≤ Laws.bound F := _root_.le_trans (by decide) (Laws.bound_large (F := F))
    unfold AcceptableIn
    simp only [endWidth, lineStretch, if_true, add_zero, sub_zero]
    rcases eq_or_lt_of_le hfit with e | e
    · exact Or.inl e
    · exact Or.inr ⟨e, by omega, Laws.le_trans _ _ _ (Laws.div_half _ _ (by omega) (by omega) (by omega) (by omega)) hto⟩
  · exact ⟨_, _, h⟩

/-- Empty words, then none or a word that is not empty. -/
theorem lead_empty : ∀ tokens : List (List Rune), tokens ≠ [] →
    (∃ k, tokens = List.replicate (k + 1) []) ∨ ∃ k t ts, t ≠ [] ∧ tokens = List.replicate k [] ++ t :: ts
  | [], h => absurd rfl h
  | (r :: t) :: ts, _ => Or.inr ⟨0, r :: t, ts, by simp, rfl⟩
  | [] :: ts, _ => by
    by_cases h0 : ts = []
    · exact Or.inl ⟨0, by rw [h0]; rfl⟩
    · rcases lead_empty ts h0 with ⟨k, e⟩ | ⟨k, t, us, h1, e⟩
      · exact Or.inl ⟨k + 1, by rw [e, List.replicate_succ (n := k + 1)]⟩
      · exact Or.inr ⟨k + 1, t, us, h1, by rw [e, List.replicate_succ]; rfl⟩

/-- **C54**, for any words in wide lines: those where the spaces of as many words as there are leave more than the
tolerance. -/
theorem C54_wide_partial (c : Call rt env dict opts text n l tokens maxWidth W) (τ : Int) (hτ : 0 < τ)
    (ho : Arith.lt (defaultOptions opts).tolerance (Arith.tenths τ) = true)
    (hn : 6 * τ ≤ 10 * (W - (tokens.length : Int) * (measureOf (defaultOptions opts) text).space)) :
    ∃ r, leftAlignUniform rt env l tokens maxWidth = .ok r := by
  have hsp := space_nonneg c
  have hB := width_bound c
  have hW : 0 < W := by
    have : 0 ≤ (tokens.length : Int) * (measureOf (defaultOptions opts) text).space := mul_nonneg (by omega) hsp
    omega
  by_cases h0 : tokens = []
  · subst h0; exact ⟨_, align_nil rt env l maxWidth⟩
  rcases lead_empty tokens h0 with ⟨k, e⟩ | ⟨k, t, ts, ht, e⟩
  · subst e
    by_cases hk : k = 0
    · subst hk
      obtain ⟨l', h⟩ := C60_empty_word_partial c hW
      exact ⟨_, h⟩
    · obtain ⟨r, h, _⟩ := call_empty c (by omega) (fun j hj =>
        noBlank_wide (p := []) hsp τ hτ ho hB hn j (by simp; omega))
      exact ⟨r, h⟩
  · subst e
    by_cases hk : k = 0
    · subst hk
      exact C54_no_panic_partial c hW (by simpa using ht)
    · obtain ⟨l', ⟨_, h⟩ | ⟨_, _, _, _, h⟩⟩ := C94_indented_partial c hW ht (by omega)
        (noBlank_of_wide hsp τ hτ ho hB hn (by simp))
      · exact ⟨_, h⟩
      · exact ⟨_, h⟩

end

section
variable {F : Type} [Arith F] [Laws F] {rt : Runtime} {env : Env} {dict : Dictionary} {l : LineBreaker F}
  {tokens : List (List Rune)} {W : Int}

attribute [local irreducible] defaultText

/-- **C54**, with the default options: no panic in lines that are 60 columns wider than there are words. -/
theorem C54_wide_default_partial (hu : Used env dict [] l) (hw : Walks rt) (hd : AsciiDigits env)
    (h : Ordinary tokens W) (hn : (tokens.length : Int) + 60 ≤ W) :
    ∃ r, leftAlignUniform rt env l tokens (Arith.ofInt W : F) = .ok r := by
  refine C54_wide_partial (call_default hu hw hd h) 100 (by decide) ?_ ?_
  · refine Laws.lt_of_le _ (Arith.tenths 90) _ (Laws.tenths_le _ _ (by decide)) ?_
    rw [show (90 : Int) = 10 * 9 by decide, show (100 : Int) = 10 * 10 by decide, Laws.tenths_int, Laws.tenths_int,
      Laws.lt_int _ _ (small _ (by decide)) (small _ (by decide))]
    rfl
  · have h1 : defaultText [0x20] = 1 := defaultText_space
    have h2 : (measureOf (defaultOptions ([] : List (Opt F))) defaultText).space = defaultText [0x20] := by
      unfold measureOf
      rfl
    rw [h2, h1]
    omega

end

/-! ## Cases -/

section
local instance indentLaws : Laws Rat := ratLaws (2 ^ 53) (le_refl _)

theorem indent_call {words : List String} {W : Int} (h : ∀ t ∈ words.map runesOf, (t.length : Int) < 2 ^ 63 ∧ (0x1B : Rune) ∉ t)
    (hx : ((List.intercalate [0x20] (words.map runesOf)).length : Int) + 1 + |W| ≤ 2 ^ 53) :
    Call forward Env.ascii (dictOf sampleLines) [unit] demoText 1 (demo []) (words.map runesOf) (Arith.ofInt W : Rat) W :=
  unit_call [] sane_demo rfl h hx

/-- Two empty words before a paragraph, in a width where it is set on two lines. -/
example : ∃ hy ls, Layout hy (AcceptableIn 6 1 (measureOf (defaultOptions [unit]) demoText) 5 (Tolerated (defaultOptions [unit])))
      false true (paraSyms (splitterOf Env.ascii (dictOf sampleLines) (defaultOptions [unit])) (["aaaa", "bb"].map runesOf)) ls ∧
    ["aaaa", "bb"].map runesOf = ls.map (Line.text [0x20]) ∧ ∀ s, hy s = [] ∨ hy s = [0x2D] := by
  obtain ⟨l', h⟩ := linesOf_ok (show linesOf forward (demo []) ["", "", "aaaa", "bb"] 5 = .ok (some (["aaaa", "bb"].map runesOf)) by
    decide +kernel)
  have c : Call forward Env.ascii (dictOf sampleLines) [unit] demoText 1 (demo [])
      (List.replicate 2 [] ++ runesOf "aaaa" :: ["bb"].map runesOf) (Arith.ofInt 5 : Rat) 5 :=
    indent_call (words := ["", "", "aaaa", "bb"]) (by decide +kernel) (by decide +kernel)
  have hom : openMark (paraSyms (splitterOf Env.ascii (dictOf sampleLines) (defaultOptions [unit]))
      (runesOf "aaaa" :: ["bb"].map runesOf)) = 0 := by decide +kernel
  have hl : indentLoss 2 (paraSyms (splitterOf Env.ascii (dictOf sampleLines) (defaultOptions [unit]))
      (runesOf "aaaa" :: ["bb"].map runesOf)) = 6 := by unfold indentLoss; rw [hom]; rfl
  have hg : indentGaps 2 (paraSyms (splitterOf Env.ascii (dictOf sampleLines) (defaultOptions [unit]))
      (runesOf "aaaa" :: ["bb"].map runesOf)) = 1 := by unfold indentGaps; rw [hom]
  obtain ⟨l'', ⟨_, h2⟩ | ⟨hy, ls, h1, h3, h2⟩⟩ := C94_indented_partial c (by decide) (by decide) (by decide)
    (noBlank_loss (by decide) (by decide) (by rw [hom]; decide) (by rw [hg]; decide))
  · rw [show leftAlignUniform forward Env.ascii (demo []) (List.replicate 2 [] ++ runesOf "aaaa" :: ["bb"].map runesOf)
      (Arith.ofInt 5) = _ from h] at h2
    cases h2
  · rw [show leftAlignUniform forward Env.ascii (demo []) (List.replicate 2 [] ++ runesOf "aaaa" :: ["bb"].map runesOf)
      (Arith.ofInt 5) = _ from h] at h2
    rw [hl, hg] at h1
    refine ⟨hy, ls, h1, ?_, h3⟩
    simp only [Except.ok.injEq, Prod.mk.injEq, Option.some.injEq] at h2
    exact h2.1

/-- **C94** fails: two empty words before a paragraph, in a width where it could be set. -/
theorem C94_indented_fails :
    linesOf forward (demo []) ["", "", "aaaa", "bb"] 6 = .ok none ∧
      linesOf forward (demo []) ["aaaa", "bb"] 6 = .ok (some (["aaaa", "bb"].map runesOf)) := by decide +kernel

/-- One line. -/
example : ∃ lines l', leftAlignUniform forward Env.ascii (demo []) (["", "", "aaaa", "bb"].map runesOf) (Arith.ofInt 8) =
    .ok (some lines, l') := by
  have hom : openMark (paraSyms (splitterOf Env.ascii (dictOf sampleLines) (defaultOptions [unit]))
      (runesOf "aaaa" :: ["bb"].map runesOf)) = 0 := by decide +kernel
  have hg : indentGaps 2 (paraSyms (splitterOf Env.ascii (dictOf sampleLines) (defaultOptions [unit]))
      (runesOf "aaaa" :: ["bb"].map runesOf)) = 1 := by unfold indentGaps; rw [hom]
  refine C94_fits_partial (k := 2) (t := runesOf "aaaa") (ts := ["bb"].map runesOf)
    (indent_call (words := ["", "", "aaaa", "bb"]) (by decide +kernel) (by decide +kernel)) (by decide) (by decide) (by decide)
    (by decide) (by decide +kernel) (noBlank_loss (by decide) (by decide) (by rw [hom]; decide) (by rw [hg]; decide)) ?_
  rw [hg]
  decide +kernel

/-- A width where the paragraph of `C54_leading_empty_fails` is set. -/
example : ∃ r, leftAlignUniform forward Env.ascii (demo []) (["", "", "", "aaaa"].map runesOf) (Arith.ofInt 64) = .ok r :=
  C54_wide_partial (indent_call (words := ["", "", "", "aaaa"]) (by decide +kernel) (by decide +kernel)) 100 (by decide)
    (by decide +kernel) (by decide +kernel)

example : ∃ r, leftAlignUniform forward Env.ascii (demo []) (["", "", "aaaa"].map runesOf) (Arith.ofInt 4) = .ok r := by
  have hom : openMark (paraSyms (splitterOf Env.ascii (dictOf sampleLines) (defaultOptions [unit]))
      (runesOf "aaaa" :: [])) = 0 := by decide +kernel
  refine C54_indent_narrow_partial (k := 2) (t := runesOf "aaaa") (ts := [])
    (indent_call (words := ["", "", "aaaa"]) (by decide +kernel) (by decide +kernel)) (by decide) (by decide) (by decide)
    (by rw [hom]; decide) ?_
  unfold indentGaps
  rw [hom]
  decide

/-- With the default options. -/
example : ∃ r, leftAlignUniform forward Env.ascii (new Env.ascii (dictOf sampleLines) [] : LineBreaker Rat)
    (["", "", "", "aaaa"].map runesOf) (Arith.ofInt 80) = .ok r := by
  have hx : defaultText (List.intercalate [0x20] (["", "", "", "aaaa"].map runesOf)) = 7 := by
    rw [defaultText_sum _ (by decide +kernel)]; decide +kernel
  exact C54_wide_default_partial .new forward_walks digits_ascii
    ⟨by decide +kernel, fun t h => by
      have : ∀ t ∈ ["", "", "", "aaaa"].map runesOf, (t.length : Int) < 2 ^ 63 ∧ (0x1B : Rune) ∉ t := by decide +kernel
      exact escapeFree_of (this t h).1 (this t h).2, by rw [hx]; decide⟩ (by decide)

end

end Verif.Props
