import Verif.Props.AnyReflow
import Verif.Props.EmptyWords

/-! # C117: empty words, whatever the widths -/

set_option linter.unusedSectionVars false

namespace Verif.Props
open Verif.Go Verif.Model Verif.Model.LB Verif.Spec Verif.Spec.Ansi Verif.Spec.LB Verif.Proofs Verif.Proofs.LB

theorem word_empty {sp : Splitter} (hl : sp.Lossless) {xs : List Span} (h : xs.flatMap Span.text = []) : spansSyms sp xs = [] := by
  refine List.flatMap_eq_nil_iff.mpr fun x hx => ?_
  rw [List.flatMap_eq_nil_iff.mp h x hx]
  exact token_nil hl

theorem words_head {sp : Splitter} (hl : sp.Lossless) (tks : List (List Span)) :
    ∀ x ∈ (styledSyms sp tks).head?, (∃ t, x = .part t) ∨ x = .gap := by
  intro x hx
  cases tks with
  | nil => cases hx
  | cons t ts =>
    by_cases ht : t.flatMap Span.text = []
    · cases ts with
      | nil =>
        have hx : x ∈ (spansSyms sp t).head? := hx
        rw [word_empty hl ht] at hx
        cases hx
      | cons u us =>
        have hx : x ∈ (spansSyms sp t ++ .gap :: styledSyms sp (u :: us)).head? := hx
        rw [word_empty hl ht] at hx
        simp at hx
        exact Or.inr hx.symm
    · obtain ⟨u, r, e⟩ := words_start sp (tks := t :: ts) (by simp) (by
        intro xs hxs
        simp at hxs
        subst hxs
        exact text_parts hl ht)
      rw [e] at hx
      simp at hx
      exact Or.inl ⟨u, hx.symm⟩

theorem words_runs {sp : Splitter} (hl : sp.Lossless) (tks : List (List Span)) : (styledSyms sp tks).IsChain AdjRun := by
  have one : ∀ t, (spansSyms sp t).IsChain AdjRun := by
    intro t
    by_cases ht : t.flatMap Span.text = []
    · rw [word_empty hl ht]; simp
    · exact (word_full hl ht).chain.imp fun _ _ h => Or.inl h
  induction tks with
  | nil => simp [styledSyms]
  | cons t ts ih =>
    cases ts with
    | nil => exact one t
    | cons u us =>
      simp only [styledSyms]
      rw [List.isChain_append]
      refine ⟨one t, ?_, ?_⟩
      · rw [List.isChain_cons]
        refine ⟨fun y hy => ?_, ih⟩
        rcases words_head hl (u :: us) y hy with h | h
        · exact Or.inl (Or.inr (Or.inl h))
        · exact Or.inr ⟨rfl, h⟩
      · intro x hx y hy
        simp at hy
        subst hy
        by_cases ht : t.flatMap Span.text = []
        · rw [word_empty hl ht] at hx; cases hx
        · rcases (word_full hl ht).last x hx with h | h
          · exact Or.inl (Or.inl h)
          · exact Or.inl (Or.inr (Or.inr ⟨h, rfl⟩))

theorem fills_blank {g : List Rune} {hy : Option Sym → List Rune → Prop} {ss : List Sym} {shown : List (List Rune)}
    (h : Fills true g hy ss shown) (hh : ∀ s h, hy s h → s ≠ some .soft → h = []) (hn : ∀ t, .part t ∉ ss) : shown = [[]] := by
  cases h with
  | last d b t h1 h2 h3 =>
    rw [hh _ _ h3 (by simp), lineText_chars, (start_set h2).2.1 (fun t ht => hn t (by simp [ht]))]
    rfl
  | line d b s t h1 h2 h3 h4 h5 h6 h7 h8 =>
    obtain ⟨u, hu⟩ := h7 rfl
    exact absurd (by simp [hu]) (hn u)

/-- Lines with all parts of words show the text of these words, the last one being not blank. -/
theorem fills_runs {g : List Rune} {hy : Option Sym → List Rune → Prop} {ss : List Sym} {shown : List (List Rune)}
    (h : Fills true g hy ss shown) {inWord : Rune → List Rune → Prop}
    (hh : ∀ s h, hy s h → s ≠ some .soft → h = [])
    (hin : ∀ v r s h, [.part (v ++ [r]), s] <:+: ss → s ≠ .gap → (∀ t, s ≠ .part t) → hy (some s) h → inWord r h)
    (hc : ss.IsChain AdjRun) (hf : .part [] ∉ ss) (hlast : ∀ line ∈ shown.getLast?, line ≠ []) :
    ReflowRuns g (fun e => e = []) inWord (chars (startLine ss)) shown := by
  induction h with
  | last d b t h1 h2 h3 =>
    have := hh _ _ h3 (by simp)
    subst this
    rw [List.append_nil, lineText_chars, start_drop h1, (start_set h2).1]
    exact .last _
  | @line d b s t rest lines h1 h2 h3 h4 h5 h6 h7 h8 ih =>
    obtain ⟨u, hu⟩ := h7 rfl
    have e0 : chars (startLine (d ++ b ++ (s.toList ++ rest))) = chars b ++ chars (s.toList ++ rest) := by
      rw [List.append_assoc, start_drop h1, (start_set h2).2.2 ⟨u, hu⟩]
    rw [e0, lineText_chars]
    obtain ⟨_, c2, c3⟩ := List.isChain_append.mp hc
    have hne : lines ≠ [] := by
      generalize s.toList ++ rest = q at h8
      cases h8 <;> simp
    have hlast' : ∀ line ∈ lines.getLast?, line ≠ [] := by
      intro line hm
      exact hlast line (by rw [List.getLast?_cons_of_ne_nil hne]; exact hm)
    have hi := ih (fun v r y h hi => hin v r y h (hi.trans (List.suffix_append _ _).isInfix)) c2
      (fun hm => hf (List.mem_append_right _ hm)) hlast'
    have hr : ∃ t, .part t ∈ s.toList ++ rest := by
      by_contra hr
      have := fills_blank h8 hh (fun t ht => hr ⟨t, ht⟩)
      rw [this] at hlast'
      exact hlast' [] (by simp) rfl
    have hfr : .part [] ∉ s.toList ++ rest := fun hm => hf (List.mem_append_right _ hm)
    cases s with
    | none =>
      rcases h5 rfl with rfl | ⟨r, rfl⟩
      · simp at hr
      · simp only [Option.toList_none, List.nil_append] at c2 hfr hi ⊢
        rw [show startLine (.gap :: r) = startLine r from rfl, drop_chars c2 (fun hm => hfr (by simp [hm]))] at hi
        rw [chars_cons]
        exact .gap _ t (hh _ _ h6 (by simp)) hi
    | some s =>
      have hsp : ∀ t, s ≠ .part t := fun t e => h3 t (by rw [e])
      have hsg : s ≠ .gap := fun e => h4 (by rw [e])
      have hsc : symCh s = [] := sym_text hsp hsg
      have hss : ∀ r, startLine (s :: r) = startLine r := by
        intro r
        cases s with
        | part t => exact absurd rfl (hsp t)
        | _ => rfl
      cases rest with
      | nil =>
        obtain ⟨t, ht⟩ := hr
        simp at ht
        exact absurd ht.symm (hsp t)
      | cons z r =>
        simp only [Option.toList_some, List.cons_append, List.nil_append] at c2 c3 hfr hi ⊢
        rw [hss] at hi
        rw [chars_cons, hsc, List.nil_append]
        obtain ⟨d1, d2⟩ := List.isChain_cons_cons.mp c2
        rcases run_after d1 hsp with ⟨v, rfl⟩ | ⟨rfl, hns⟩
        · obtain ⟨a, v', rfl⟩ := List.exists_cons_of_ne_nil (l := v) (by rintro rfl; exact hfr (by simp))
          obtain ⟨q, y, hq⟩ : ∃ q y, b = q ++ [y] := by
            rcases List.eq_nil_or_concat b with e | ⟨q, y, e⟩
            · rw [e] at hu; cases hu
            · exact ⟨q, y, by rw [e, List.concat_eq_append]⟩
          obtain ⟨w, rfl⟩ := run_before (c3 y (by rw [hq]; simp) s (by simp)) hsg hsp
          obtain ⟨w', c, rfl⟩ : ∃ w' c, w = w' ++ [c] := by
            rcases List.eq_nil_or_concat w with e | ⟨q, y, e⟩
            · exfalso; exact hf (by rw [hq, e]; simp)
            · exact ⟨q, y, by rw [e, List.concat_eq_append]⟩
          have e3 : chars b = chars q ++ w'.map Ch.rune ++ [.rune c] := by
            rw [hq, chars_append, chars_cons]
            simp [symCh, chars]
          have e5 : chars (.part (a :: v') :: r) = .rune a :: (v'.map Ch.rune ++ chars r) := by
            rw [chars_cons]; simp [symCh]
          rw [show startLine (.part (a :: v') :: r) = .part (a :: v') :: r from rfl, e5] at hi
          rw [e5, e3]
          have hxi : inWord c t := by
            refine hin w' c s t ⟨d ++ q, .part (a :: v') :: r, ?_⟩ hsg hsp h6
            rw [hq]; simp
          have := ReflowRuns.inside (g := g) (atGap := fun e => e = []) (chars q ++ w'.map Ch.rune) c a t hxi hi
          simpa using this
        · rw [show startLine (.gap :: r) = startLine r from rfl, drop_chars d2 (fun hm => hfr (by simp [hm]))] at hi
          rw [chars_cons]
          exact .gap _ t (hh _ _ h6 (by intro e; exact hns (Option.some.inj e))) hi

section
variable {F : Type} [Arith F] [Laws F] {rt : Runtime} {env : Env} {dict : Dictionary} {opts : List (Opt F)}
  {l l' : LineBreaker F} {seqs : List (List Rune)} {tokens : List (List Rune)} {tks : List (List Span)} {maxWidth : F}
  {lines : List (List Rune)}

/-- **C117**, for any words, the first and the last one with some text, any measurer, width, and calls before: the lines
hold, once sequences are taken out, the text of the words, where each empty word gives one more space. A line ends at a
space, where the rest of the run of spaces is dropped, or inside a word. There is no blank line. -/
theorem C117_any [MoreLaws F] (hu : AnyUsed env dict opts l seqs) (hf : List.Forall₂ (Found rt env) tokens tks)
    (hz : Arith.toInt ((defaultOptions opts).downScale (Arith.ofInt 0 : F)) ≤ 0)
    (hl : (splitterOf env dict (defaultOptions opts)).Lossless)
    (h1 : ∀ xs ∈ tks.head?, xs.flatMap Span.text ≠ []) (h2 : ∀ xs ∈ tks.getLast?, xs.flatMap Span.text ≠ [])
    (hp : Within (defaultOptions opts).hyphenPenalty 10000) (ho : OwnPlace (defaultOptions opts))
    (hn : Arith.eq (defaultOptions opts).hyphenPenalty (defaultOptions opts).hyphenPenalty = true)
    (hb : Arith.le (defaultOptions opts).tolerance (Arith.ofInt 50) = true)
    (h : leftAlignUniform rt env l tokens maxWidth = .ok (some lines, l')) :
    ∃ shown, List.Forall₂ (Sprinkled (seqs ++ seqsOf tks)) shown lines ∧ (∀ line ∈ shown, line ≠ []) ∧
      ReflowRuns (spacesBetween (defaultOptions opts)) (fun e => e = []) (CutAfter env (defaultOptions opts))
        (joined (tks.map (·.flatMap Span.text))) shown := by
  have htk : tks ≠ [] := by
    rintro rfl
    cases hf
    rw [align_nil] at h
    cases h
  have hw1 : ∀ xs ∈ tks.head?, spansSyms (splitterOf env dict (defaultOptions opts)) xs ≠ [] := fun xs hx => text_parts hl (h1 xs hx)
  have hw2 : ∀ xs ∈ tks.getLast?, spansSyms (splitterOf env dict (defaultOptions opts)) xs ≠ [] := fun xs hx => text_parts hl (h2 xs hx)
  obtain ⟨shown, s1, s2, _, s4⟩ := C112_every hu hf hz hw1 hw2 hp ho hb h
  have hfull := no_empty_parts hl tks
  have hne : ∀ line ∈ shown, line ≠ [] := by
    rintro line hm rfl
    obtain ⟨t, t1, t2⟩ := s4 _ hm
    rw [List.infix_nil] at t2
    rw [t2] at t1
    exact hfull t1
  refine ⟨shown, s1, hne, ?_⟩
  obtain ⟨t, r, e⟩ := words_start _ htk hw1
  have := fills_runs s2 (by
    rintro s t ⟨ht | ⟨_, _, ht⟩, _⟩ hs
    · exact ht
    · exact absurd ht hs) (cuts_after hn) (words_runs hl tks) hfull (fun line hm => hne line (List.mem_of_getLast? hm))
  rw [← words_chars hl]
  rwa [e] at this ⊢

end

/-- **C117**, in float64 with the default options: any words, the first and the last one with some text, any width, any
calls before. -/
theorem C117_default_any {rt : Runtime} {env : Env} {dict : Dictionary} {l l' : LineBreaker F64} {seqs : List (List Rune)}
    {tokens : List (List Rune)} {tks : List (List Span)} {maxWidth : F64} {lines : List (List Rune)}
    (hu : AnyUsed env dict ([] : List (Opt F64)) l seqs) (hf : List.Forall₂ (Found rt env) tokens tks)
    (h1 : ∀ xs ∈ tks.head?, xs.flatMap Span.text ≠ []) (h2 : ∀ xs ∈ tks.getLast?, xs.flatMap Span.text ≠ [])
    (h : leftAlignUniform rt env l tokens maxWidth = .ok (some lines, l')) :
    ∃ shown, List.Forall₂ (Sprinkled (seqs ++ seqsOf tks)) shown lines ∧ (∀ line ∈ shown, line ≠ []) ∧
      ReflowRuns [0x20] (fun e => e = []) (CutAfter env (defaultOptions ([] : List (Opt F64))))
        (joined (tks.map (·.flatMap Span.text))) shown := by
  have e : (defaultOptions ([] : List (Opt F64))).hyphenPenalty = Arith.ofInt 300 := rfl
  have eg : spacesBetween (defaultOptions ([] : List (Opt F64))) = [0x20] := by
    unfold spacesBetween
    rw [spaces_default]
    rfl
  rw [← eg]
  refine C117_any hu hf (zero_scaled64 _) (lossless_builtin rfl rfl) h1 h2 ?_ ?_ ?_ ?_ h
  · rw [e]; exact within_int 300 10000 (by decide) (by decide) (by decide)
  · intro k hk
    rw [e, Laws.eq_int k 300 ?_ (small 300 (by decide))]
    · simp only [List.mem_cons, List.not_mem_nil, or_false] at hk
      rcases hk with rfl | rfl | rfl | rfl <;> decide
    · simp only [List.mem_cons, List.not_mem_nil, or_false] at hk
      rcases hk with rfl | rfl | rfl | rfl <;> exact small _ (by decide)
  · rw [e, Laws.eq_int 300 300 (small 300 (by decide)) (small 300 (by decide))]; rfl
  · show Arith.le (defaultOptions ([] : List (Opt F64))).tolerance _ = true
    rw [← Laws.tenths_int 50]
    exact Laws.tenths_le _ _ (by decide)

/-! ## A case -/

local instance emptyAnyLaws : Laws Rat := ratLaws (2 ^ 53) (le_refl _)

/-- **C117**, a case: negative widths, and empty words. -/
theorem C117_any_case : ∃ l' shown,
    leftAlignUniform backward Env.ascii (new Env.ascii (dictOf sampleLines) [unit, belowQ]) ((["foobar", "", "", "c", "", "d"] : List String).map runesOf)
      (Arith.ofInt 4) = .ok (some ((["fo-", "obar", "c  d"] : List String).map runesOf), l') ∧
    List.Forall₂ (Sprinkled ([] ++ seqsOf ((["foobar", "", "", "c", "", "d"] : List String).map fun w => [⟨[], runesOf w, []⟩]))) shown
      ((["fo-", "obar", "c  d"] : List String).map runesOf) ∧ (∀ line ∈ shown, line ≠ []) ∧
    ReflowRuns [0x20] (fun e => e = []) (CutAfter Env.ascii (defaultOptions [unit, belowQ]))
      (joined ((["foobar", "", "", "c", "", "d"] : List String).map runesOf)) shown := by
  obtain ⟨l', h⟩ := lines_of (l := new Env.ascii (dictOf sampleLines) [unit, belowQ]) (rt := backward)
    (ts := (["foobar", "", "", "c", "", "d"] : List String).map runesOf) (w := Arith.ofInt 4)
    (ls := (["fo-", "obar", "c  d"] : List String).map runesOf) (by decide +kernel)
  obtain ⟨shown, h1, h2, h3⟩ := C117_any .new (tks := (["foobar", "", "", "c", "", "d"] : List String).map fun w => [⟨[], runesOf w, []⟩])
    (.cons (found_run (by decide +kernel)) (.cons (found_run (by decide +kernel)) (.cons (found_run (by decide +kernel))
      (.cons (found_run (by decide +kernel)) (.cons (found_run (by decide +kernel)) (.cons (found_run (by decide +kernel)) .nil))))))
    (by decide +kernel)
    (lossless_builtin rfl rfl) (by decide +kernel) (by decide +kernel) (within_int 300 10000 (by decide) (by decide) (by decide))
    (by intro k hk; simp only [List.mem_cons, List.not_mem_nil, or_false] at hk; rcases hk with rfl | rfl | rfl | rfl <;> decide +kernel)
    (by decide +kernel) (by decide +kernel) h
  rw [show spacesBetween (defaultOptions [unit, belowQ]) = [0x20] by decide +kernel] at h3
  exact ⟨l', shown, h, h1, h2, h3⟩

end Verif.Props
