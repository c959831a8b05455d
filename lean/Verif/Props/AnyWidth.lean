import Verif.Props.AnyText

/-! # C92: words of any runes -/

set_option linter.unusedSectionVars false

namespace Verif.Props
open Verif.Go Verif.Model Verif.Model.LB Verif.Model.Ansi Verif.Spec Verif.Spec.Ansi Verif.Spec.LB Verif.Proofs Verif.Proofs.LB Verif.Proofs.Ansi

section
variable {F : Type} [Arith F] [Laws F] {rt : Runtime} {env : Env} {dict : Dictionary} {opts : List (Opt F)}
  {text : List Rune → Int} {n : Nat} {l l' : LineBreaker F} {seqs : List (List Rune)} {tokens : List (List Rune)}
  {tks : List (List Span)} {maxWidth : F} {W : Int} {lines : List (List Rune)}

/-- A start or stop sequence with short parameters, or nothing. -/
def IsStyle (env : Env) (s : List Rune) : Prop :=
  s = [] ∨ ∃ q : CtlSeq, q.WellFormed env ∧ q.Short ∧ (q.Starts ∨ q.Stops) ∧ s = q.runes

theorem sprinkled_madeOf {t line : List Rune} (hs : ∀ s ∈ seqs, IsStyle env s) (ht : (0x1B : Rune) ∉ t)
    (h : Sprinkled seqs t line) : MadeOf env StyleSeq line ∧ Visible env line t := by
  induction h with
  | nil => exact ⟨.nil, .nil⟩
  | rune r _ ih =>
    have := ih (fun h => ht (by simp [h]))
    have hr : r ≠ 0x1B := fun h => ht (by simp [h])
    exact ⟨.rune hr this.1, .rune hr this.2⟩
  | seq s hm _ ih =>
    have := ih ht
    rcases hs s hm with rfl | ⟨q, h1, h2, h3, rfl⟩
    · exact this
    · exact ⟨.seq h1 h2 (word_key h3) h3 this.1, .seq h1 this.2⟩

/-- Whatever the word, the starts and the stops that StripToken finds in it are sequences of their kind. -/
theorem C92_found (rt : Runtime) (hd : AsciiDigits env) {t : List Rune} (hl : (t.length : Int) < 2 ^ 63) {xs : List Span}
    (h : Found rt env t xs) : ∀ x ∈ xs, IsStyle env x.start ∧ IsStyle env x.stop := by
  obtain ⟨toks, mem, h1, rfl⟩ := h
  have hv : (⟨0, t.length⟩ : View).Valid (t ++ rt.spare t) := by simp [View.Valid]
  rcases Ansi.stripToken_spec env hd (t ++ rt.spare t) ⟨0, t.length⟩ hv hl with ⟨g1, _⟩ | ⟨toks', g1, g2⟩
  · rw [g1] at h1; cases h1
  · rw [g2] at h1; cases h1
    intro x hx
    obtain ⟨tok, htok, rfl⟩ := List.mem_map.mp hx
    obtain ⟨a, b⟩ := run_sequences hd g1 hv tok htok
    constructor
    · rcases a with e | ⟨s, e1, e2, e3, e4⟩
      · exact Or.inl (by simp [e, fieldRunes])
      · exact Or.inr ⟨s, e1, e2, Or.inl e3, by rw [← e4]; cases tok.start <;> rfl⟩
    · rcases b with e | ⟨s, e1, e2, e3, e4⟩
      · exact Or.inl (by simp [e, fieldRunes])
      · exact Or.inr ⟨s, e1, e2, Or.inr e3, by rw [← e4]; cases tok.stop <;> rfl⟩

theorem seqsOf_style (hd : AsciiDigits env) (hl : ∀ t ∈ tokens, (t.length : Int) < 2 ^ 63)
    (h : List.Forall₂ (Found rt env) tokens tks) : ∀ s ∈ seqsOf tks, IsStyle env s := by
  induction h with
  | nil => intro s hs; simp [seqsOf] at hs
  | @cons t xs ts xss h1 _ ih =>
    intro s hs
    have e : seqsOf (xs :: xss) = xs.flatMap (fun x => [x.start, x.stop]) ++ seqsOf xss := by simp [seqsOf]
    rw [e] at hs
    rcases List.mem_append.mp hs with hs | hs
    · obtain ⟨x, hx, hs⟩ := List.mem_flatMap.mp hs
      have := C92_found rt hd (hl t (by simp)) h1 x hx
      simp only [List.mem_cons, List.not_mem_nil, or_false] at hs
      rcases hs with rfl | rfl
      exacts [this.1, this.2]
    · exact ih (fun u hu => hl u (by simp [hu])) s hs

/-- **C92** (partial: no text found in the words holds ESC, so that all of their sequences are known ones). After any history
of any words, StripToken, called on any slice that holds a line, returns; the texts it finds make up the line without
its sequences; they hold no rune but those of the texts of the words, spaces and hyphens; and, when the measurer adds up, their widths
add up to the requested one at most. -/
theorem C92_any_partial (c : AnyCall rt env dict opts text 1 l seqs tokens tks maxWidth W) (hW : 0 < W)
    (hl : ∀ t ∈ tokens, (t.length : Int) < 2 ^ 63) (hs : ∀ s ∈ seqs, IsStyle env s)
    (he : ∀ t ∈ textsOf tks, (0x1B : Rune) ∉ t)
    (ho : (defaultOptions opts).renderHyphens = true → OwnPenalty (defaultOptions opts))
    (wd : Rune → Int) (hwd : SumOf text (textsOf tks) wd)
    (h : leftAlignUniform rt env l tokens maxWidth = .ok (some lines, l')) :
    ∀ line ∈ lines, ∀ mem v, IsSlice mem v → v.elems mem = line →
      ∃ toks, stripToken env mem v = .ok (toks, mem) ∧
        Visible env line (toks.flatMap (fun t => textElems mem t.text)) ∧
        (∀ t ∈ toks, ∀ r ∈ textElems mem t.text, r = 0x20 ∨ r = 0x2D ∨ ∃ u ∈ textsOf tks, r ∈ u) ∧
        (toks.map (fun t => text (textElems mem t.text))).sum ≤ W := by
  rcases any_exact c hW with ⟨_, l'', h1⟩ | ⟨_, ls, h1, lines', l'', H, h2, h3, h4⟩
  · rw [h1] at h; cases h
  · rw [h2] at h
    cases h
    have hsp := lossless (env := env) (dict := dict) c.sane
    have hspr := wrapped_sprinkled h3 h4 (by
      have e : parts (styledSyms (splitterOf env dict (defaultOptions opts)) tks) =
          (styledPieces (splitterOf env dict (defaultOptions opts)) tks).map Piece.text := by
        rw [styledSyms_eq, parts_syms, ← parPieces_text, ← styledPieces_eq]
      rw [layout_parts h1, List.drop_zero, ← e]
      exact List.prefix_rfl)
    have hfull : ∀ t ∈ tks.map full, ∀ x ∈ t, x.text ≠ [] := by
      intro t ht
      obtain ⟨xs, hxs, rfl⟩ := List.mem_map.mp ht
      exact full_text xs
    have hc : chars (styledSyms (splitterOf env dict (defaultOptions opts)) tks) = joined (textsOf tks) := by
      rw [← full_styled hsp, styled_chars hsp _ hfull, List.map_map]
      exact congrArg joined (List.map_congr_left (fun xs _ => full_flat xs))
    have hst : ∀ s ∈ seqs ++ seqsOf tks, IsStyle env s := by
      intro s hm
      rcases List.mem_append.mp hm with hm | hm
      exacts [hs s hm, seqsOf_style c.digits hl c.found s hm]
    intro line hline mem v hv hv'
    obtain ⟨shown, hs1, hs2⟩ := forall₂_left hspr.flip line hline
    obtain ⟨x, hx, rfl⟩ := List.mem_map.mp hs1
    have hw := layout_widths c.sane hc (fun hb => styled_whole (splitterOf env dict (defaultOptions opts)) hb _) wd hwd
        (layout_hy (fun s hs => hyOf_own ho s hs) h1) x hx
    have hr1 : List.replicate 1 (0x20 : Rune) = [0x20] := rfl
    rw [hr1] at hs2
    have hno : (0x1B : Rune) ∉ Line.text [0x20] x := by
      intro hm
      rcases hw.2 _ hm with e | e | ⟨u, hu, hm⟩
      · exact absurd e (by decide)
      · exact absurd e (by decide)
      · exact he u hu hm
    obtain ⟨hm, hvis⟩ := sprinkled_madeOf hst hno hs2
    rw [← hv'] at hm
    obtain ⟨toks, g1, g2, g3⟩ := strip_visible c.digits hv.1 hv.2 hm
    rw [hv'] at g2
    rw [← visible_unique g2 hvis] at hw
    obtain ⟨w1, w2⟩ := hw
    have hr : ∀ t ∈ toks, ∀ r ∈ textElems mem t.text, r = 0x20 ∨ r = 0x2D ∨ ∃ u ∈ textsOf tks, r ∈ u :=
      fun t ht r hr => w2 r (List.mem_flatMap.mpr ⟨t, ht, hr⟩)
    refine ⟨toks, g1, g2, hr, ?_⟩
    rw [hwd _ w2] at w1
    have : ∀ ts : List StrippedToken, (∀ t ∈ ts, t ∈ toks) →
        (ts.map (fun t => text (textElems mem t.text))).sum = ((ts.flatMap (fun t => textElems mem t.text)).map wd).sum := by
      intro ts
      induction ts with
      | nil => simp
      | cons t ts ih =>
        intro hts
        simp only [List.map_cons, List.sum_cons, List.flatMap_cons, List.map_append, List.sum_append]
        rw [ih (fun u hu => hts u (by simp [hu])), hwd _ (hr t (hts t (by simp)))]
    rw [this toks (fun _ h => h)]
    exact w1

end

/-! ## The default options -/

section
variable {F : Type} [Arith F] [Laws F]
attribute [local irreducible] defaultText

theorem found_escape {rt : Runtime} {env : Env} (hd : AsciiDigits env) {t : List Rune} (hl : (t.length : Int) < 2 ^ 63)
    (hm : MadeOf env (fun s => s.Starts ∨ s.Stops) t) {xs : List Span} (h : Found rt env t xs) :
    (0x1B : Rune) ∉ xs.flatMap Span.text := by
  obtain ⟨toks, mem, h1, rfl⟩ := h
  have hv : (⟨0, t.length⟩ : View).Valid (t ++ rt.spare t) := by simp [View.Valid]
  have he : (⟨0, t.length⟩ : View).elems (t ++ rt.spare t) = t := by simp [View.elems]
  obtain ⟨toks', g1, _, g3⟩ := strip_visible hd hv hl (by rw [he]; exact hm)
  rw [g1] at h1; cases h1
  intro hr
  obtain ⟨x, hx, hr⟩ := List.mem_flatMap.mp hr
  obtain ⟨tok, htok, rfl⟩ := List.mem_map.mp hx
  refine g3 tok htok ?_
  obtain ⟨y, a, b, r⟩ := tok
  cases y <;> exact hr

/-- **C92** (partial: all sequences of the words are start and stop sequences with parameters of at most two digits), with the
default options and an integral width, after any history of any words: the widths that runes.Widths computes for the texts that
StripToken finds in a line add up to the requested width at most. -/
theorem C92_any_default_partial {rt : Runtime} {env : Env} {dict : Dictionary} {tokens : List (List Rune)}
    {seqs : List (List Rune)} {W : Int} {l l' : LineBreaker F} {lines : List (List Rune)}
    (hu : AnyUsed env dict [] l seqs) (hs : ∀ s ∈ seqs, IsStyle env s) (hw : Walks rt) (hd : AsciiDigits env)
    (h : OrdinaryAny env tokens W) (hm : ∀ t ∈ tokens, MadeOf env (fun s => s.Starts ∨ s.Stops) t) (hW : 0 < W)
    (hr : leftAlignUniform rt env l tokens (Arith.ofInt W) = .ok (some lines, l')) :
    ∀ line ∈ lines, ∀ mem v, IsSlice mem v → v.elems mem = line →
      ∃ toks w, stripToken env mem v = .ok (toks, mem) ∧
        Visible env line (toks.flatMap (fun t => textElems mem t.text)) ∧
        WidthSum (toks.map (fun t => textElems mem t.text)) w ∧ w ≤ W := by
  obtain ⟨tks, c, hk, hsum⟩ := any_default (rt := rt) (F := F) (l := l) hu hw hd h
  have he : ∀ t ∈ textsOf tks, (0x1B : Rune) ∉ t := by
    have hf := c.found
    intro t ht
    obtain ⟨xs, hxs, rfl⟩ := List.mem_map.mp ht
    obtain ⟨tok, htok, hf⟩ := forall₂_left hf.flip xs hxs
    exact found_escape hd (h.short tok htok) (hm tok htok) hf
  intro line hl mem v hv he'
  obtain ⟨toks, h1, h2, h3, h4⟩ := C92_any_partial c hW h.short hs he (fun _ => own_default) _ hsum hr line hl mem v hv he'
  have hval : ∀ t ∈ toks.map (fun t => textElems mem t.text), ∀ r ∈ t, 0 ≤ r ∧ r ≤ 0x10FFFF := by
    intro t ht r hr
    obtain ⟨k, hk', rfl⟩ := List.mem_map.mp ht
    rcases h3 k hk' r hr with rfl | rfl | ⟨u, hu, hr⟩
    · decide
    · decide
    · obtain ⟨t', g1, g2⟩ := texts_mem hk u hu
      exact h.valid t' g1 r (g2 r hr)
  obtain ⟨w, e, h5⟩ := widthSum_total hval
  refine ⟨toks, w, h1, h2, h5, ?_⟩
  rw [e, List.map_map]
  exact h4

end

/-! ## Cases -/

local instance anyWidthLaws : Laws Rat := ratLaws (2 ^ 53) (le_refl _)

/-- Words with nested styles, styles without text, a stop without start, a style not closed. -/
def measuredWords : List (List Rune) := ["a\x1b[1m\x1b[4mbb\x1b[0m\x1b[0m", "\x1b[0mcc", "\x1b[7md\x1b[1m", "ee"].map runesOf

def nestedLetters : List (List Span) :=
  [[⟨[], runesOf "a", []⟩, ⟨runesOf "\x1b[1m", [], []⟩, ⟨runesOf "\x1b[4m", runesOf "bb", runesOf "\x1b[0m"⟩, ⟨[], [], runesOf "\x1b[0m"⟩],
    [⟨[], [], runesOf "\x1b[0m"⟩, ⟨[], runesOf "cc", []⟩], [⟨runesOf "\x1b[7m", runesOf "d", []⟩, ⟨runesOf "\x1b[1m", [], []⟩],
    [⟨[], runesOf "ee", []⟩]]

theorem measured_found : List.Forall₂ (Found forward Env.ascii) measuredWords nestedLetters :=
  .cons (found_run (by decide +kernel)) (.cons (found_run (by decide +kernel)) (.cons (found_run (by decide +kernel))
    (.cons (found_run (by decide +kernel)) .nil)))

theorem measured_call : AnyCall forward Env.ascii (dictOf sampleLines) [unit] demoText 1 (demo []) [] measuredWords nestedLetters
    (Arith.ofInt 6 : Rat) 6 :=
  ⟨.new, sane_demo, forward_walks, digits_ascii, measured_found, ⟨_, rfl, _, List.mem_cons_self, by decide +kernel⟩, demo_scaled 6,
    by decide +kernel⟩

def measuredLines : List (List Rune) := ["a\x1b[4mbb\x1b[0m cc", "\x1b[7md ee"].map runesOf

theorem measured_run : ∃ l', leftAlignUniform forward Env.ascii (demo []) measuredWords (Arith.ofInt 6 : Rat) =
    .ok (some measuredLines, l') :=
  linesOf_ok (by decide +kernel)

example : ∀ line ∈ measuredLines, ∃ toks, stripToken Env.ascii line ⟨0, line.length⟩ = .ok (toks, line) ∧
    Visible Env.ascii line (toks.flatMap (fun t => textElems line t.text)) ∧
    (toks.map (fun t => demoText (textElems line t.text))).sum ≤ 6 := by
  obtain ⟨l', h⟩ := measured_run
  intro line hl
  have hlen : IsSlice line ⟨0, line.length⟩ := by
    have : ∀ line ∈ measuredLines, IsSlice line ⟨0, line.length⟩ := by decide +kernel
    exact this line hl
  obtain ⟨toks, h1, h2, _, h4⟩ := C92_any_partial measured_call (by decide) (by decide +kernel) (by simp) (by decide +kernel)
    (fun _ => own_demo) _ (sumOf_demo _) h line hl line ⟨0, line.length⟩ hlen (by simp [View.elems])
  exact ⟨toks, h1, h2, h4⟩

/-- Two of these words for a default line breaker. -/
def nestedPair : List (List Rune) := measuredWords.take 2

theorem nestedPair_made : ∀ t ∈ nestedPair, MadeOf Env.ascii (fun s => s.Starts ∨ s.Stops) t := by
  have e : nestedPair = [0x61 :: (CtlSeq.runes ⟨[0x31], [], 0x6D⟩ ++ (CtlSeq.runes ⟨[0x34], [], 0x6D⟩ ++ (0x62 :: 0x62 ::
      (resetSeq.runes ++ (resetSeq.runes ++ []))))), resetSeq.runes ++ [0x63, 0x63]] := by decide +kernel
  have h1 : ∀ {l}, MadeOf Env.ascii (fun s => s.Starts ∨ s.Stops) l → MadeOf Env.ascii (fun s => s.Starts ∨ s.Stops) (resetSeq.runes ++ l) :=
    fun h => .seq ⟨by decide, by decide, by decide⟩ ⟨by decide, by decide⟩ (by decide)
      (Or.inr (Or.inr (Or.inr ⟨rfl, by simp [CtlSeq.ZeroArg, resetSeq]⟩))) h
  have h2 : ∀ (q : CtlSeq) {l}, q = ⟨[0x31], [], 0x6D⟩ ∨ q = ⟨[0x34], [], 0x6D⟩ →
      MadeOf Env.ascii (fun s => s.Starts ∨ s.Stops) l → MadeOf Env.ascii (fun s => s.Starts ∨ s.Stops) (q.runes ++ l) := by
    intro q l hq h
    rcases hq with rfl | rfl
    · exact .seq ⟨by decide, by decide, by decide⟩ ⟨by decide, by decide⟩ (by decide)
        (Or.inl (Or.inr (Or.inr ⟨rfl, by simp [CtlSeq.ZeroArg]⟩))) h
    · exact .seq ⟨by decide, by decide, by decide⟩ ⟨by decide, by decide⟩ (by decide)
        (Or.inl (Or.inr (Or.inr ⟨rfl, by simp [CtlSeq.ZeroArg]⟩))) h
  rw [e]
  intro t ht
  simp only [List.mem_cons, List.not_mem_nil, or_false] at ht
  rcases ht with rfl | rfl
  · exact .rune (by decide) (h2 _ (Or.inl rfl) (h2 _ (Or.inr rfl) (.rune (by decide) (.rune (by decide) (h1 (h1 .nil))))))
  · exact h1 (.rune (by decide) (.rune (by decide) .nil))

theorem nestedPair_ordinary : OrdinaryAny Env.ascii nestedPair 6 where
  short := by decide +kernel
  whole := by
    have : ∀ t ∈ nestedPair, ∃ r, t.getLast? = some r ∧ Env.ascii.isDigit r = false := by
      intro t ht
      simp only [nestedPair, measuredWords, List.map_cons, List.map_nil, List.take_succ_cons, List.take_zero, List.mem_cons,
        List.not_mem_nil, or_false] at ht
      rcases ht with rfl | rfl
      · exact ⟨0x6D, by decide +kernel⟩
      · exact ⟨0x63, by decide +kernel⟩
    intro t ht
    obtain ⟨r, h1, h2⟩ := this t ht
    exact whole_of_last digits_ascii h1 h2
  valid := by decide +kernel
  first := ⟨0x61, _, _, rfl, by decide⟩
  exact := by rw [defaultText_sum _ (by decide +kernel)]; decide +kernel

example {l' : LineBreaker Rat} {lines : List (List Rune)}
    (hr : leftAlignUniform forward Env.ascii (new Env.ascii (dictOf sampleLines) [] : LineBreaker Rat) nestedPair (Arith.ofInt 6) =
      .ok (some lines, l')) :
    ∀ line ∈ lines, ∀ mem v, IsSlice mem v → v.elems mem = line →
      ∃ toks w, stripToken Env.ascii mem v = .ok (toks, mem) ∧
        Visible Env.ascii line (toks.flatMap (fun t => textElems mem t.text)) ∧
        WidthSum (toks.map (fun t => textElems mem t.text)) w ∧ w ≤ 6 :=
  C92_any_default_partial .new (by simp) forward_walks digits_ascii nestedPair_ordinary nestedPair_made (by decide) hr

end Verif.Props
