import Verif.Props.LinebreakCases
import Verif.Proofs.LBFit

/-! # C69–C72: which paragraphs can be set -/

set_option linter.unusedSectionVars false

namespace Verif.Props
open Verif.Go Verif.Model Verif.Model.LB Verif.Spec Verif.Spec.Ansi Verif.Spec.LB Verif.Proofs Verif.Proofs.LB

section
variable {F : Type} [Arith F] [Laws F] {rt rt' : Runtime} {env : Env} {dict : Dictionary} {opts : List (Opt F)}
  {text : List Rune → Int} {n : Nat} {l l₂ : LineBreaker F} {tokens : List (List Rune)} {maxWidth : F} {W : Int}

/-- A word that starts with neither a punctuation mark nor a hyphen. -/
def PlainWord (env : Env) (w : List Rune) : Prop := ∀ r ∈ w.head?, ¬ IsMark env r ∧ isHyphenRune r = false

/-! ## Words and their symbols -/

theorem head_flatten {ps : List (List Rune)} (h : [] ∉ ps) (p : List Rune) (hp : p ∈ ps.head?) :
    ps.flatten.head? = p.head? ∧ p ≠ [] := by
  cases ps with
  | nil => cases hp
  | cons q qs =>
    simp only [List.head?_cons, Option.mem_def, Option.some.injEq] at hp
    subst hp
    have : q ≠ [] := by rintro rfl; exact h (by simp)
    obtain ⟨r, q, rfl⟩ := List.exists_cons_of_ne_nil this
    simp

theorem markFirst_append {a b : List Sym} (ha : markFirst a = false) (hne : a ≠ [])
    (hb : ∀ x ∈ b.head?, x ≠ .mark ∧ x ≠ .hard) : markFirst (a ++ b) = false := by
  rcases a with _ | ⟨x, _ | ⟨y, a⟩⟩
  · exact absurd rfl hne
  · rcases b with _ | ⟨y, b⟩
    · rfl
    · cases y <;> simp_all [markFirst]
  · cases y <;> simp_all [markFirst]

theorem token_head {s : List Sym} (h : Token s) (b : List Sym) : ∀ x ∈ (s ++ b).head?, x ≠ .mark ∧ x ≠ .hard := by
  obtain ⟨y, ys, e⟩ := List.exists_cons_of_ne_nil h.ne
  intro x hx
  obtain ⟨t, ht⟩ := h.head y (by rw [e]; rfl)
  rw [e] at hx
  simp only [List.cons_append, List.head?_cons, Option.mem_def, Option.some.injEq] at hx
  subst hx; subst ht
  simp

theorem flatMap_plain {α : Type} (f : α → List Sym) (xs : List α) (h : ∀ x ∈ xs, Token (f x))
    (hf : ∀ x ∈ xs.head?, markFirst (f x) = false) : markFirst (xs.flatMap f) = false := by
  cases xs with
  | nil => rfl
  | cons x xs =>
    rw [List.flatMap_cons]
    refine markFirst_append (hf x rfl) (h x (by simp)).ne ?_
    cases xs with
    | nil => simp
    | cons y ys =>
      rw [List.flatMap_cons]
      exact token_head (h y (by simp)) _

theorem intersperse_plain (ps : List (List Rune)) : markFirst ((ps.map Sym.part).intersperse .soft) = false := by
  rcases ps with _ | ⟨a, _ | ⟨b, ps⟩⟩ <;> rfl

variable (env dict opts) in
/-- Text that does not start with a hyphen. -/
theorem hyphens_plain (hs : Sane (defaultOptions opts) text n) (hb : (defaultOptions opts).wordBreak = true)
    (p : List Rune) (hp : ∀ r ∈ p.head?, isHyphenRune r = false) :
    markFirst (((splitterOf env dict (defaultOptions opts)).hyphens p).flatMap
      (wordSyms (splitterOf env dict (defaultOptions opts)))) = false := by
  have hl := lossless (env := env) (dict := dict) hs
  have h := hl.hyphens p
  refine flatMap_plain _ _ (fun w hw => (word_token hl w (by rintro rfl; exact h.2 hw) hb).1) ?_
  intro q hq
  obtain ⟨e1, e2⟩ := head_flatten h.2 q hq
  rw [h.1] at e1
  unfold wordSyms
  rw [if_neg]
  · exact intersperse_plain _
  · show ¬ isHyphen q = true
    unfold isHyphen
    match q, e2 with
    | [r], _ => simpa using hp r (by rw [e1]; rfl)
    | _ :: _ :: _, _ => simp

theorem plain_start (hs : Sane (defaultOptions opts) text n) (w : List Rune) (hw : PlainWord env w) :
    PlainStart (splitterOf env dict (defaultOptions opts)) w := by
  have hl := lossless (env := env) (dict := dict) hs
  have h := hl.marks w
  refine flatMap_plain _ _ (fun p hp => (chunk_token hl p (by rintro rfl; exact h.2 hp)).1) ?_
  intro p hp
  obtain ⟨e1, e2⟩ := head_flatten h.2 p hp
  rw [h.1] at e1
  unfold chunkSyms
  rw [if_neg]
  · split
    · rfl
    · rename_i hb
      refine hyphens_plain env dict opts hs (by
        cases e : (defaultOptions opts).wordBreak with
        | true => rfl
        | false => exact absurd (Or.inl e) hb) p (fun r hr => ?_)
      exact (hw r (by rw [e1]; exact hr)).2
  · intro hm
    obtain ⟨r, rfl, hr⟩ := (C06_isPunctuation_iff env p).mp hm
    exact (hw r (by rw [e1]; rfl)).1 hr

theorem token_width (hs : Sane (defaultOptions opts) text n) {wd : Rune → Int} (hwd : SumOf text tokens wd)
    (w : List Rune) (hw : w ∈ tokens) : lineWidth (measureOf (defaultOptions opts) text)
      (tokenSyms (splitterOf env dict (defaultOptions opts)) w) = text w := by
  have hl := lossless (env := env) (dict := dict) hs
  have hwd' : SumOf text [w] wd := by
    intro t ht
    refine hwd t (fun r hr => ?_)
    rcases ht r hr with h | h | ⟨u, hu, h⟩
    · exact Or.inl h
    · exact Or.inr (Or.inl h)
    · rw [List.mem_singleton] at hu
      subst hu
      exact Or.inr (Or.inr ⟨_, hw, h⟩)
  obtain ⟨t1, t2⟩ := text_body hl hwd' (measureOf (defaultOptions opts) text) rfl rfl
    (paraSyms (splitterOf env dict (defaultOptions opts)) [w]) (fun _ h => h)
  have := lineText_joined hl [0x20] [w]
  rw [this] at t1 t2
  have e : List.intercalate [0x20] [w] = w := by simp [List.intercalate]
  rw [e] at t1 t2
  rw [hwd' _ t1, t2]
  rfl

/-! ## C69 -/

/-- **C69**, for words that are not too wide compared to the tolerance, and do not start with a mark (see
`C69_wide_words_fails` and `C69_leading_mark_fails`): when each word fits in the width, the paragraph is set. `τ` is a
lower bound of the tolerance, in tenths. -/
theorem C69_words_fit_partial (c : Call rt env dict opts text n l tokens maxWidth W) (hW : 0 < W) (h0 : tokens ≠ [])
    (hne : ∀ w ∈ tokens, w ≠ []) (wd : Rune → Int) (hwd : SumOf text tokens wd) (τ B : Int)
    (hτ : Arith.le (Arith.tenths τ) (defaultOptions opts).tolerance = true) (hB : 10 * B ≤ 6 * τ) (hn : W ≤ 1000 * τ)
    (hfit : ∀ w ∈ tokens, text w ≤ W) (hshort : ∀ w ∈ tokens.tail, text w + text [0x20] ≤ B + 1)
    (hplain : ∀ w ∈ tokens.tail, PlainWord env w) :
    ∃ lines l', leftAlignUniform rt env l tokens maxWidth = .ok (some lines, l') := by
  have hl := lossless (env := env) (dict := dict) c.sane
  have hnn : ∀ p, 0 ≤ lineWidth (measureOf (defaultOptions opts) text) p :=
    lineWidth_nonneg (setup_new (env := env) (dict := dict) c.sane)
  have hWb : W ≤ Laws.bound F := by
    have h1 := c.exact
    have h2 := hnn (paraSyms (splitterOf env dict (defaultOptions opts)) tokens)
    have h3 : 0 ≤ (measureOf (defaultOptions opts) text).hyphen := by
      have := c.sane.nonneg [0x2D]
      unfold measureOf
      split <;> first | exact this | exact le_refl _
    have := le_abs_self W
    omega
  have hbig : (10000 : Int) ≤ Laws.bound F := _root_.le_trans (by decide) (Laws.bound_large (F := F))
  have hf : tokens.head? ≠ some [] := by
    obtain ⟨t, ts, rfl⟩ := List.exists_cons_of_ne_nil h0
    simpa using hne t (by simp)
  refine (C52_set_iff c hW h0 hf).1.mpr ?_
  obtain ⟨t, ts, rfl⟩ := List.exists_cons_of_ne_nil h0
  have key := fill (sp := splitterOf env dict (defaultOptions opts)) hl (m := measureOf (defaultOptions opts) text)
    (W := W) (B := B) (ok := Tolerated (defaultOptions opts)) ?_ ?_ hnn ts [t] true (by simpa using hne) (by simp) (Or.inl rfl)
    ?_ ?_
  · exact key
  · intro d h1 h2 h3
    exact Laws.le_trans _ _ _ (Laws.div_tenths _ _ τ (by omega) (by omega) (by decide) (by omega) (by omega)) hτ
  · intro d h1 h2
    exact Laws.le_trans _ _ _ (Laws.div_tenths _ _ τ (by omega) (by omega) (by decide) (by omega) (by omega)) hτ
  · rw [show paraSyms (splitterOf env dict (defaultOptions opts)) [t] = tokenSyms (splitterOf env dict (defaultOptions opts)) t from rfl,
      token_width c.sane hwd t (by simp)]
    exact hfit t (by simp)
  · intro w hw
    rw [token_width c.sane hwd w (by simp [hw])]
    exact ⟨plain_start c.sane w (hplain w hw), hfit w (by simp [hw]), hshort w hw⟩

/-- **C69**, with the default options: words of at most 51 columns. -/
theorem C69_default_partial (hu : Used env dict [] l) (hw : Walks rt) (hd : AsciiDigits env)
    (h : Ordinary tokens W) (hW : 0 < W) (hn : W ≤ 86000) (h0 : tokens ≠ []) (hne : ∀ w ∈ tokens, w ≠ [])
    (hfit : ∀ w ∈ tokens, defaultText w ≤ W) (hshort : ∀ w ∈ tokens.tail, defaultText w ≤ 51)
    (hplain : ∀ w ∈ tokens.tail, PlainWord env w) :
    ∃ lines l', leftAlignUniform rt env l tokens (Arith.ofInt W : F) = .ok (some lines, l') := by
  refine C69_words_fit_partial (call_default hu hw hd h) hW h0 hne _ (sumOf_default h) 86 51 (Laws.tenths_le _ _ (by decide))
    (by decide) (by omega) hfit (fun w hw => ?_) hplain
  have := hshort w hw
  rw [defaultText_space]
  omega

/-- **C69.** A part of a word that may not be cut and is wider than the lines: the result is ErrCannotBeSet. -/
theorem C69_too_wide (c : Call rt env dict opts text n l tokens maxWidth W) (hW : 0 < W) (h0 : tokens ≠ [])
    (hf : tokens.head? ≠ some []) (p : List Rune)
    (hp : .part p ∈ paraSyms (splitterOf env dict (defaultOptions opts)) tokens) (hwide : W < text p) :
    ∃ l', leftAlignUniform rt env l tokens maxWidth = .ok (none, l') := by
  refine (C52_set_iff c hW h0 hf).2.mpr (too_wide (fun t => c.sane.nonneg t) (c.sane.nonneg _) ?_ hp hwide)
  have := c.sane.nonneg [0x2D]
  unfold measureOf
  split <;> first | exact this | exact le_refl _

/-! ## C70 -/

/-- **C70.** A paragraph that is set is also set with a higher tolerance. -/
theorem C70_tolerance (x : F) (c : Call rt env dict opts text n l tokens maxWidth W)
    (c' : Call rt' env dict (opts ++ [.tolerance x]) text n l₂ tokens maxWidth W) (hW : 0 < W)
    (hf : tokens.head? ≠ some []) (hx : Arith.le (defaultOptions opts).tolerance x = true)
    (h : ∃ lines l', leftAlignUniform rt env l tokens maxWidth = .ok (some lines, l')) :
    ∃ lines l', leftAlignUniform rt' env l₂ tokens maxWidth = .ok (some lines, l') := by
  by_cases h0 : tokens = []
  · subst h0
    obtain ⟨_, _, h⟩ := h
    rw [align_nil] at h; cases h
  have e : defaultOptions (opts ++ [.tolerance x]) = { defaultOptions opts with tolerance := x } := by
    simp [defaultOptions, Opt.apply]
  have h1 := (C52_set_iff c hW h0 hf).1.mp h
  refine (C52_set_iff c' hW h0 hf).1.mpr ?_
  have e1 : measureOf (defaultOptions (opts ++ [.tolerance x])) text = measureOf (defaultOptions opts) text := by
    rw [e]; rfl
  have e2 : splitterOf env dict (defaultOptions (opts ++ [.tolerance x])) = splitterOf env dict (defaultOptions opts) := by
    rw [e]; rfl
  rw [e1, e2]
  refine settable_mono (fun d s ht => ?_) h1
  unfold Tolerated at ht ⊢
  rw [e]
  exact Laws.le_trans _ _ _ ht hx

/-! ## C71 -/

/-- **C71**, when no word starts with a hyphen (also after a mark in the word, see `C71_leading_hyphen_fails`): a
paragraph that is set without breaking words is also set when words may be broken. -/
theorem C71_word_break_partial (c : Call rt env dict (opts ++ [.wordBreak false]) text n l tokens maxWidth W)
    (c' : Call rt' env dict (opts ++ [.wordBreak true]) text n l₂ tokens maxWidth W) (hW : 0 < W)
    (hne : ∀ w ∈ tokens, w ≠ []) (wd : Rune → Int) (hwd : SumOf text tokens wd)
    (hhy : ∀ w ∈ tokens, ∀ p ∈ (splitterOf env dict (defaultOptions opts)).marks w, ∀ r ∈ p.head?, isHyphenRune r = false)
    (h : ∃ lines l', leftAlignUniform rt env l tokens maxWidth = .ok (some lines, l')) :
    ∃ lines l', leftAlignUniform rt' env l₂ tokens maxWidth = .ok (some lines, l') := by
  by_cases h0 : tokens = []
  · subst h0
    obtain ⟨_, _, h⟩ := h
    rw [align_nil] at h; cases h
  have hf : tokens.head? ≠ some [] := by
    obtain ⟨t, ts, rfl⟩ := List.exists_cons_of_ne_nil h0
    simpa using hne t (by simp)
  have e : ∀ b, defaultOptions (opts ++ [.wordBreak b]) = { defaultOptions opts with wordBreak := b } := by
    intro b; simp [defaultOptions, Opt.apply]
  have h1 := (C52_set_iff c hW h0 hf).1.mp h
  refine (C52_set_iff c' hW h0 hf).1.mpr ?_
  obtain ⟨ls, h1⟩ := h1
  have hbr : Breaks (splitterOf env dict (defaultOptions (opts ++ [.wordBreak true])))
      (splitterOf env dict (defaultOptions (opts ++ [.wordBreak false]))) := by
    rw [e, e]
    exact ⟨rfl, rfl, rfl, rfl⟩
  have hl := lossless (env := env) (dict := dict) c'.sane
  have hwb : (defaultOptions (opts ++ [.wordBreak true])).wordBreak = true := by rw [e]
  have hparts : ∀ t, .part t ∈ paraSyms (splitterOf env dict (defaultOptions (opts ++ [.wordBreak false]))) tokens →
      ∃ w ∈ tokens, t ∈ (splitterOf env dict (defaultOptions opts)).marks w := by
    intro t ht
    have htok : ∀ w, .part t ∈ tokenSyms (splitterOf env dict (defaultOptions (opts ++ [.wordBreak false]))) w →
        t ∈ (splitterOf env dict (defaultOptions opts)).marks w := by
      intro w hw
      unfold tokenSyms at hw
      rw [List.mem_flatMap] at hw
      obtain ⟨p, hp, hw⟩ := hw
      unfold chunkSyms at hw
      rw [if_pos (Or.inl hbr.off)] at hw
      have : t = p := by split at hw <;> simpa using hw
      subst this
      rw [e] at hp
      exact hp
    clear c c' h hne hwd hhy h0 hf h1
    induction tokens with
    | nil => cases ht
    | cons w ws ih =>
      cases ws with
      | nil => exact ⟨w, by simp, htok w ht⟩
      | cons v vs =>
        simp only [paraSyms, List.mem_append, List.mem_cons, reduceCtorEq, false_or] at ht
        rcases ht with ht | ht
        · exact ⟨w, by simp, htok w ht⟩
        · obtain ⟨w', h1, h2⟩ := ih ht
          exact ⟨w', by simp at h1 ⊢; tauto, h2⟩
  have hwhole : Whole (splitterOf env dict (defaultOptions (opts ++ [.wordBreak true])))
      (measureOf (defaultOptions (opts ++ [.wordBreak false])) text)
      (paraSyms (splitterOf env dict (defaultOptions (opts ++ [.wordBreak false]))) tokens) := by
    have hlo := lossless (env := env) (dict := dict) c.sane
    have hpe : ∀ t, .part t ∈ paraSyms (splitterOf env dict (defaultOptions (opts ++ [.wordBreak false]))) tokens → t ≠ [] := by
      rintro t ht rfl
      exact para_full hlo tokens ht
    refine ⟨hpe, ?_, ?_, ?_, (para_whole _ hbr.off tokens).1, (para_whole _ hbr.off tokens).2⟩
    · intro t ht
      show markFirst (if _ then _ else _) = false
      split
      · rfl
      · obtain ⟨w, hw, hm⟩ := hparts t ht
        exact hyphens_plain env dict _ c'.sane hwb t (hhy w hw t hm)
    · intro t ht
      have hsub : ∀ s ∈ finer (splitterOf env dict (defaultOptions (opts ++ [.wordBreak true]))) (.part t),
          s ∈ paraSyms (splitterOf env dict (defaultOptions (opts ++ [.wordBreak true]))) tokens := by
        intro s hs
        rw [finer_para hbr, List.mem_flatMap]
        exact ⟨_, ht, hs⟩
      obtain ⟨t1, t2⟩ := text_body hl hwd (measureOf (defaultOptions (opts ++ [.wordBreak false])) text) rfl rfl _ hsub
      rw [← t2, ← hwd _ t1]
      refine congrArg text ?_
      rw [lineText_chars]
      have hne' := hpe t ht
      have : chars (finer (splitterOf env dict (defaultOptions (opts ++ [.wordBreak true]))) (.part t)) = t.map Ch.rune := by
        show chars (if _ then _ else _) = _
        by_cases hc : (splitterOf env dict (defaultOptions (opts ++ [.wordBreak true]))).isMark t = true ∨
            (t.length : Int) ≤ (splitterOf env dict (defaultOptions (opts ++ [.wordBreak true]))).short
        · rw [if_pos hc]; simp [chars, symCh]
        · have h3 := (chunk_token hl t hne').2
          unfold chunkSyms at h3
          rw [if_neg hc]
          rw [if_neg (fun e => hc (Or.inl e)), if_neg (by rw [hbr.on]; rintro (e | e); cases e; exact hc (Or.inr e))] at h3
          exact h3
      rw [this, chText_runes]
    · intro t ht
      have := (para_after _ tokens t .mark ht).1 rfl
      rw [hbr.isMark] at this
      exact this
  have hok : (Tolerated (defaultOptions (opts ++ [.wordBreak true])) : Int → Int → Prop) =
      Tolerated (defaultOptions (opts ++ [.wordBreak false])) := by
    funext d s
    unfold Tolerated
    rw [e, e]
  obtain ⟨ls', h2⟩ := layout_finer hl hwb (m := measureOf (defaultOptions (opts ++ [.wordBreak false])) text)
    (m' := measureOf (defaultOptions (opts ++ [.wordBreak true])) text) rfl rfl h1 hwhole
  refine ⟨ls', ?_⟩
  rw [finer_para hbr, hok]
  exact h2

/-! ## C72 -/

/-- **C72**, without word breaking (see `C72_hyphens_fails` otherwise): the rendering of hyphens changes nothing to whether a
paragraph is set. -/
theorem C72_whole_words_partial (c : Call rt env dict (opts ++ [.wordBreak false, .renderHyphens false]) text n l tokens maxWidth W)
    (c' : Call rt' env dict (opts ++ [.wordBreak false, .renderHyphens true]) text n l₂ tokens maxWidth W) (hW : 0 < W)
    (hf : tokens.head? ≠ some []) :
    (∃ lines l', leftAlignUniform rt env l tokens maxWidth = .ok (some lines, l')) ↔
      ∃ lines l', leftAlignUniform rt' env l₂ tokens maxWidth = .ok (some lines, l') := by
  by_cases h0 : tokens = []
  · subst h0
    rw [align_nil, align_nil]
    constructor <;> (rintro ⟨_, _, h⟩; cases h)
  have e : ∀ b, defaultOptions (opts ++ [.wordBreak false, .renderHyphens b]) =
      { defaultOptions opts with wordBreak := false, renderHyphens := b } := by
    intro b; simp [defaultOptions, Opt.apply]
  rw [(C52_set_iff c hW h0 hf).1, (C52_set_iff c' hW h0 hf).1]
  have e1 : ∀ b, splitterOf env dict (defaultOptions (opts ++ [.wordBreak false, .renderHyphens b])) =
      splitterOf env dict { defaultOptions opts with wordBreak := false } := by intro b; rw [e]; rfl
  have e2 : ∀ b, (Tolerated (defaultOptions (opts ++ [.wordBreak false, .renderHyphens b])) : Int → Int → Prop) =
      Tolerated (defaultOptions opts) := by
    intro b; funext d s; unfold Tolerated; rw [e]
  rw [e1, e1, e2, e2]
  have hsoft := (para_whole (splitterOf env dict { defaultOptions opts with wordBreak := false }) rfl tokens).1
  have key : ∀ b b' ss, .soft ∉ ss → Settable (measureOf (defaultOptions (opts ++ [.wordBreak false, .renderHyphens b])) text) W
      (Tolerated (defaultOptions opts)) ss →
      Settable (measureOf (defaultOptions (opts ++ [.wordBreak false, .renderHyphens b'])) text) W (Tolerated (defaultOptions opts)) ss := by
    rintro b b' ss hs ⟨ls, h⟩
    refine ⟨ls, ?_⟩
    rw [e] at h ⊢
    generalize true = first at h ⊢
    have hwd : ∀ p, lineWidth (measureOf { defaultOptions opts with wordBreak := false, renderHyphens := b } text) p =
        lineWidth (measureOf { defaultOptions opts with wordBreak := false, renderHyphens := b' } text) p := by
      intro p
      induction p with
      | nil => rfl
      | cons s p ih => cases s <;> simp only [lineWidth, ih] <;> rfl
    have hacc : ∀ f p (s : Option Sym), s ≠ some .soft →
        Acceptable (measureOf { defaultOptions opts with wordBreak := false, renderHyphens := b } text) W (Tolerated (defaultOptions opts)) f p s →
        Acceptable (measureOf { defaultOptions opts with wordBreak := false, renderHyphens := b' } text) W (Tolerated (defaultOptions opts)) f p s := by
      intro f p s hs ha
      unfold Acceptable at ha ⊢
      rw [hwd] at ha
      rcases s with _ | s
      · exact ha
      · cases s <;> first | exact ha | exact absurd rfl hs
    induction h with
    | blankLine h => cases h
    | lastBlank h => cases h
    | blankAfter _ h => cases h
    | last p h1 h2 => exact .last p h1 (hacc _ _ _ (by simp) h2)
    | @brk first p s x rest lines a b c d e ih =>
      refine .brk p s x a b c (hacc _ _ _ ?_ d) (ih ?_)
      · rintro ⟨⟩; exact hs (by simp)
      · intro hm
        exact hs (by simp [(startLine_infix rest).mem hm])
  exact ⟨key _ _ _ hsoft, key _ _ _ hsoft⟩

end

/-! ## Cases -/

local instance fitLaws : Laws Rat := ratLaws (2 ^ 53) (le_refl _)

theorem sane_unit (opts : List (Opt Rat)) (h1 : (defaultOptions (unit :: opts)).scaleFactor = 1)
    (h2 : (defaultOptions (unit :: opts)).measurer = fun rs => (rs.length : Rat))
    (h3 : (defaultOptions (unit :: opts)).hyphenPenalty = 300)
    (h4 : Within (defaultOptions (unit :: opts)).tolerance 50) (h5 : (defaultOptions (unit :: opts)).hyphenator = none)
    (h6 : (defaultOptions (unit :: opts)).punctuator = none) : Sane (defaultOptions (unit :: opts)) demoText 1 := by
  refine sane_unscaled h1 (fun t => ?_) (fun t => Int.natCast_nonneg _) rfl (by decide) ?_ ?_ ?_ h4 h5 h6
  · rw [h2]
    show ((t.length : Nat) : Rat) = (((t.length : Nat) : Int) : Rat)
    simp
  · rw [h3]; exact within_int 300 10000 (by decide) (by decide) (by decide)
  · rw [h3]; decide +kernel
  · rw [h3]; decide +kernel

theorem unit_call (opts : List (Opt Rat)) (hs : Sane (defaultOptions (unit :: opts)) demoText 1)
    (h1 : (defaultOptions (unit :: opts)).scaleFactor = 1)
    {tokens : List (List Rune)} {W : Int} (h : ∀ t ∈ tokens, (t.length : Int) < 2 ^ 63 ∧ (0x1B : Rune) ∉ t)
    (hx : ((List.intercalate [0x20] tokens).length : Int) + 1 + |W| ≤ 2 ^ 53) :
    Call forward Env.ascii (dictOf sampleLines) (unit :: opts) demoText 1 (demo opts) tokens (Arith.ofInt W : Rat) W := by
  refine ⟨.new, hs, forward_walks, digits_ascii, fun t ht => escapeFree_of (h t ht).1 (h t ht).2, ?_, ?_⟩
  · show Arith.round (Arith.mul (Arith.ofInt W) _) = _
    rw [h1, show (1 : Rat) = Arith.ofInt 1 from rfl, Laws.mul_one, Laws.round_int]
  · have hl := lossless (env := Env.ascii) (dict := dictOf sampleLines) hs
    obtain ⟨t1, t2⟩ := text_body hl (sumOf_demo tokens) (measureOf (defaultOptions (unit :: opts)) demoText)
      rfl rfl (paraSyms (splitterOf Env.ascii (dictOf sampleLines) (defaultOptions (unit :: opts))) tokens) (fun _ h => h)
    rw [← t2, ← sumOf_demo tokens _ t1, lineText_joined hl]
    refine _root_.le_trans ?_ hx
    have : (measureOf (defaultOptions (unit :: opts)) demoText).hyphen ≤ 1 := by
      show (if _ then demoText [0x2D] else 0) ≤ 1
      split <;> decide
    have e : demoText (List.intercalate [0x20] tokens) = (List.intercalate [0x20] tokens).length := rfl
    rw [e]
    omega

/-- Words in a narrow column. Only the first one starts with a mark. -/
def fitWords : List String := ["(aa)", "bbbb", "cccc-c", "dd", "eeeeee"]

theorem fit_valid : ∀ t ∈ fitWords.map runesOf, (t.length : Int) < 2 ^ 63 ∧ (0x1B : Rune) ∉ t := by decide +kernel

theorem fit_call (opts : List (Opt Rat)) (hs : Sane (defaultOptions (unit :: opts)) demoText 1)
    (h1 : (defaultOptions (unit :: opts)).scaleFactor = 1) :
    Call forward Env.ascii (dictOf sampleLines) (unit :: opts) demoText 1 (demo opts) (fitWords.map runesOf) (Arith.ofInt 6 : Rat) 6 :=
  unit_call opts hs h1 fit_valid (by decide +kernel)

theorem sane_whole : Sane (defaultOptions [unit, .wordBreak false]) demoText 1 :=
  sane_unit [.wordBreak false] rfl rfl rfl ⟨by decide +kernel, by decide +kernel⟩ rfl rfl

theorem plain_of {w : List Rune} (h : w.head?.all (fun r => !punctSplitFunc Env.ascii r && !isHyphenRune r) = true) :
    PlainWord Env.ascii w := by
  intro r hr
  rw [Option.mem_def] at hr
  rw [hr] at h
  simp only [Option.all_some, Bool.and_eq_true, Bool.not_eq_true'] at h
  exact ⟨fun hm => by rw [(punctSplitFunc_iff Env.ascii r).mpr hm] at h; exact absurd h.1 (by simp), h.2⟩

/-- Five words, set in any width from 6 on. -/
example : ∃ lines l', leftAlignUniform forward Env.ascii (demo [.wordBreak false]) (fitWords.map runesOf) (Arith.ofInt 6) =
    .ok (some lines, l') := by
  refine C69_words_fit_partial (fit_call [.wordBreak false] sane_whole rfl) (by decide) (by decide +kernel) (by decide +kernel)
    (fun _ => 1) (sumOf_demo _) 86 51 (by decide +kernel) (by decide) (by decide) (by decide +kernel) (by decide +kernel) ?_
  intro w hw
  have : ∀ w ∈ (fitWords.map runesOf).tail, w.head?.all (fun r => !punctSplitFunc Env.ascii r && !isHyphenRune r) = true := by
    decide +kernel
  exact plain_of (this w hw)

example : linesOf forward (demo [.wordBreak false]) fitWords 6 = .ok (some (["(aa)", "bbbb", "cccc-c", "dd", "eeeeee"].map runesOf)) := by
  decide +kernel

/-- With the default options. -/
example : ∃ lines l', leftAlignUniform forward Env.ascii (new Env.ascii (dictOf sampleLines) [] : LineBreaker Rat)
    (["aabbdcc", "yyyy,"].map runesOf) (Arith.ofInt 8) = .ok (some lines, l') := by
  have ht : ∀ w ∈ ["aabbdcc", "yyyy,"].map runesOf, defaultText w ≤ 8 := by
    intro w hw
    rw [defaultText_sum w (by revert w; decide +kernel)]
    revert w; decide +kernel
  have hx : defaultText (List.intercalate [0x20] (["aabbdcc", "yyyy,"].map runesOf)) = 13 := by
    rw [defaultText_sum _ (by decide +kernel)]; decide +kernel
  refine C69_default_partial .new forward_walks digits_ascii
    ⟨by decide +kernel, fun t h => by
      have : ∀ t ∈ ["aabbdcc", "yyyy,"].map runesOf, (t.length : Int) < 2 ^ 63 ∧ (0x1B : Rune) ∉ t := by decide +kernel
      exact escapeFree_of (this t h).1 (this t h).2, by rw [hx]; decide⟩
    (by decide) (by decide) (by decide +kernel) (by decide +kernel) ht (fun w hw => ?_) ?_
  · exact (ht w (List.mem_of_mem_tail hw)).trans (by decide)
  · intro w hw
    have : ∀ w ∈ (["aabbdcc", "yyyy,"].map runesOf).tail,
        w.head?.all (fun r => !punctSplitFunc Env.ascii r && !isHyphenRune r) = true := by decide +kernel
    exact plain_of (this w hw)

/-- A word of six letters in a width of five. -/
example : ∃ l', leftAlignUniform forward Env.ascii (demo [.wordBreak false]) (fitWords.map runesOf) (Arith.ofInt 5) =
    .ok (none, l') :=
  C69_too_wide (unit_call [.wordBreak false] sane_whole rfl fit_valid (by decide +kernel)) (by decide) (by decide +kernel)
    (by decide +kernel) (runesOf "eeeeee") (by decide +kernel) (by decide +kernel)

/-- A higher tolerance. -/
example : ∃ lines l', leftAlignUniform forward Env.ascii (demo [.wordBreak false, .tolerance 9]) (fitWords.map runesOf)
    (Arith.ofInt 6) = .ok (some lines, l') :=
  C70_tolerance (opts := [unit, .wordBreak false]) 9 (fit_call [.wordBreak false] sane_whole rfl)
    (fit_call [.wordBreak false, .tolerance 9]
      (sane_unit _ rfl rfl rfl ⟨by decide +kernel, by decide +kernel⟩ rfl rfl) rfl)
    (by decide) (by decide +kernel) (by decide +kernel)
    ⟨_, linesOf_ok (r := some (["(aa)", "bbbb", "cccc-c", "dd", "eeeeee"].map runesOf)) (by decide +kernel)⟩

/-- Word breaking allowed. -/
example : ∃ lines l', leftAlignUniform forward Env.ascii (demo [.wordBreak true]) (fitWords.map runesOf)
    (Arith.ofInt 6) = .ok (some lines, l') :=
  C71_word_break_partial (opts := [unit]) (fit_call [.wordBreak false] sane_whole rfl)
    (fit_call [.wordBreak true] (sane_unit _ rfl rfl rfl ⟨by decide +kernel, by decide +kernel⟩ rfl rfl) rfl)
    (by decide) (by decide +kernel) (fun _ => 1) (sumOf_demo _) (by decide +kernel)
    ⟨_, linesOf_ok (r := some (["(aa)", "bbbb", "cccc-c", "dd", "eeeeee"].map runesOf)) (by decide +kernel)⟩

/-- Hyphens not rendered. -/
example : ∃ lines l', leftAlignUniform forward Env.ascii (demo [.wordBreak false, .renderHyphens false]) (fitWords.map runesOf)
    (Arith.ofInt 6) = .ok (some lines, l') :=
  (C72_whole_words_partial (opts := [unit])
    (fit_call [.wordBreak false, .renderHyphens false] (sane_unit _ rfl rfl rfl ⟨by decide +kernel, by decide +kernel⟩ rfl rfl) rfl)
    (fit_call [.wordBreak false, .renderHyphens true] (sane_unit _ rfl rfl rfl ⟨by decide +kernel, by decide +kernel⟩ rfl rfl) rfl)
    (by decide) (by decide +kernel)).mpr
    ⟨_, linesOf_ok (r := some (["(aa)", "bbbb", "cccc-c", "dd", "eeeeee"].map runesOf)) (by decide +kernel)⟩

/-! ## Failures -/

/-- **C69** fails for wide words: words of 3 and 60 letters are not set in a width of 60, where both fit, though they
are in a width of 64. -/
theorem C69_wide_words_fails :
    (∀ rt ∈ [forward, backward],
      linesOf rt (demo [.wordBreak false]) ["aaa", String.ofList (List.replicate 60 'b')] 60 = .ok none) ∧
    linesOf forward (demo [.wordBreak false]) ["aaa", String.ofList (List.replicate 60 'b')] 64 =
      .ok (some [runesOf "aaa " ++ List.replicate 60 0x62]) := by
  simp only [List.mem_cons, List.not_mem_nil, or_false, forall_eq_or_imp, forall_eq]; decide +kernel

/-- **C69** fails for a word that starts with a mark: it may be set on a line of its exact width only. -/
theorem C69_leading_mark_fails :
    (∀ rt ∈ [forward, backward], linesOf rt (demo [.wordBreak false]) ["aaaa", "(b", "cccc"] 5 = .ok none) ∧
    linesOf forward (demo [.wordBreak false]) ["aaaa", "bb", "cccc"] 5 =
      .ok (some [runesOf "aaaa", runesOf "bb", runesOf "cccc"]) := by
  simp only [List.mem_cons, List.not_mem_nil, or_false, forall_eq_or_imp, forall_eq]; decide +kernel

/-- **C71** fails for a word that starts with a hyphen: the paragraph is set without word breaking, not with it. -/
theorem C71_leading_hyphen_fails :
    linesOf forward (demo [.wordBreak false]) ["aaaaa", "-bbbb", "cccccc"] 6 =
      .ok (some [runesOf "aaaaa", runesOf "-bbbb", runesOf "cccccc"]) ∧
    ∀ rt ∈ [forward, backward], linesOf rt (demo [.wordBreak true]) ["aaaaa", "-bbbb", "cccccc"] 6 = .ok none := by
  simp only [List.mem_cons, List.not_mem_nil, or_false, forall_eq_or_imp, forall_eq]; decide +kernel

/-- **C72** fails when a word must be broken: with hyphens the paragraph is set, without hyphens it is not, though its
lines would be shorter. -/
theorem C72_hyphens_fails :
    linesOf forward (demo []) ["aabbdcc", "aabbdcc"] 6 =
      .ok (some [runesOf "aa-", runesOf "bbdcc", runesOf "aa-", runesOf "bbdcc"]) ∧
    ∀ rt ∈ [forward, backward], linesOf rt (demo [.renderHyphens false]) ["aabbdcc", "aabbdcc"] 6 = .ok none := by
  simp only [List.mem_cons, List.not_mem_nil, or_false, forall_eq_or_imp, forall_eq]; decide +kernel

end Verif.Props
