import Verif.Props.AnyReflow

/-! # C56: words of any runes -/

set_option linter.unusedSectionVars false

namespace Verif.Props
open Verif.Go Verif.Model Verif.Model.LB Verif.Spec Verif.Spec.Ansi Verif.Spec.LB Verif.Proofs Verif.Proofs.LB

/-- The words on the lines of a text, separated by one space. -/
theorem reflow_single {texts : List (List Rune)} {inWord : Rune → List Rune → Prop} {shown : List (List Rune)} (h0 : texts ≠ [])
    (hne : ∀ t ∈ texts, t ≠ []) (h : Reflow [0x20] (fun e => e = []) inWord (joined texts) shown) :
    ∀ line ∈ shown, ∃ words e, line = List.intercalate [0x20] words ++ e ∧ (e = [] ∨ ∃ r, inWord r e) ∧ words ≠ [] ∧
      ∀ w ∈ words, w ≠ [] ∧ ∀ r ∈ w, ∃ t ∈ texts, r ∈ t := by
  have hj : joined texts ≠ [] := by
    obtain ⟨t, ts, rfl⟩ := List.exists_cons_of_ne_nil h0
    have := hne t (by simp)
    cases ts <;> simp [joined, this]
  intro line hl
  obtain ⟨p, e, h1, h2, h3, h4, h5⟩ := reflow_spaced h (spaced_joined texts hne) hj line hl
  obtain ⟨words, w1, w2, w3⟩ := spaced_words 0x20 p.length p (le_refl _) h4 h3
  refine ⟨words, e, by rw [h1, w3], ?_, w1, fun w hw => ⟨(w2 w hw).1, fun r hr => mem_joined texts r (h5 _ ((w2 w hw).2 r hr))⟩⟩
  rcases h2 with e | e | e
  · exact Or.inl e
  · exact Or.inl e
  · exact Or.inr e

section
variable {F : Type} [Arith F] [Laws F] [MoreLaws F] {rt : Runtime} {env : Env} {dict : Dictionary} {opts : List (Opt F)}
  {l l' : LineBreaker F} {seqs : List (List Rune)} {tokens : List (List Rune)} {tks : List (List Span)} {maxWidth : F}
  {lines : List (List Rune)}

theorem shown_words {o : Options F} {shown : List (List Rune)} (h0 : tks ≠ []) (hne : ∀ xs ∈ tks, xs.flatMap Span.text ≠ [])
    (h : Reflow [0x20] (fun e => e = []) (CutAfter env o) (joined (tks.map (·.flatMap Span.text))) shown) :
    ∀ line ∈ shown, ∃ words e, line = List.intercalate [0x20] words ++ e ∧ (e = [] ∨ e = [0x2D]) ∧ words ≠ [] ∧
      ∀ w ∈ words, w ≠ [] ∧ ∀ r ∈ w, ∃ xs ∈ tks, ∃ x ∈ xs, r ∈ x.text := by
  intro line hline
  obtain ⟨words, e, g1, g2, g3, g4⟩ := reflow_single (by simpa using h0) (by
    intro t ht
    obtain ⟨xs, hxs, rfl⟩ := List.mem_map.mp ht
    exact hne xs hxs) h line hline
  refine ⟨words, e, g1, ?_, g3, fun w hw => ⟨(g4 w hw).1, fun r hr => ?_⟩⟩
  · rcases g2 with e | ⟨r, ⟨e, _⟩ | ⟨_, e⟩⟩
    · exact Or.inl e
    · exact Or.inl e
    · split at e <;> simp [e]
  · obtain ⟨t, ht, hr⟩ := (g4 w hw).2 r hr
    obtain ⟨xs, hxs, rfl⟩ := List.mem_map.mp ht
    obtain ⟨x, hx, hr⟩ := List.mem_flatMap.mp hr
    exact ⟨xs, hxs, x, hx, hr⟩

/-- **C56**, for any words with some text, widths, measurers and histories: when a space has the width of one blank, the words
that a line shows are separated by exactly one. -/
theorem C56_any (hu : AnyUsed env dict opts l seqs) (hf : List.Forall₂ (Found rt env) tokens tks)
    (hz : Arith.toInt ((defaultOptions opts).downScale (Arith.ofInt 0 : F)) ≤ 0)
    (hl : (splitterOf env dict (defaultOptions opts)).Lossless) (hne : ∀ xs ∈ tks, xs.flatMap Span.text ≠ [])
    (hp : Within (defaultOptions opts).hyphenPenalty 10000) (ho : OwnPlace (defaultOptions opts))
    (hn : Arith.eq (defaultOptions opts).hyphenPenalty (defaultOptions opts).hyphenPenalty = true)
    (hb : Arith.le (defaultOptions opts).tolerance (Arith.ofInt 50) = true)
    (hone : spacesBetween (defaultOptions opts) = [0x20])
    (h : leftAlignUniform rt env l tokens maxWidth = .ok (some lines, l')) :
    ∃ shown, List.Forall₂ (Sprinkled (seqs ++ seqsOf tks)) shown lines ∧
      ∀ line ∈ shown, ∃ words e, line = List.intercalate [0x20] words ++ e ∧ (e = [] ∨ e = [0x2D]) ∧ words ≠ [] ∧
        ∀ w ∈ words, w ≠ [] ∧ ∀ r ∈ w, ∃ xs ∈ tks, ∃ x ∈ xs, r ∈ x.text := by
  obtain ⟨shown, h1, h2⟩ := C50_any hu hf hz hl hne hp ho hn hb h
  refine ⟨shown, h1, ?_⟩
  have h0 : tks ≠ [] := by
    rintro rfl
    cases hf
    rw [align_nil] at h
    cases h
  rw [hone] at h2
  exact shown_words h0 hne h2

end

/-- **C56**, with the default options in float64, for any words with some text, any width and history. -/
theorem C56_default_any {rt : Runtime} {env : Env} {dict : Dictionary} {l l' : LineBreaker F64} {seqs : List (List Rune)}
    {tokens : List (List Rune)} {tks : List (List Span)} {maxWidth : F64} {lines : List (List Rune)}
    (hu : AnyUsed env dict ([] : List (Opt F64)) l seqs) (hf : List.Forall₂ (Found rt env) tokens tks)
    (hne : ∀ xs ∈ tks, xs.flatMap Span.text ≠ [])
    (h : leftAlignUniform rt env l tokens maxWidth = .ok (some lines, l')) :
    ∃ shown, List.Forall₂ (Sprinkled (seqs ++ seqsOf tks)) shown lines ∧
      ∀ line ∈ shown, ∃ words e, line = List.intercalate [0x20] words ++ e ∧ (e = [] ∨ e = [0x2D]) ∧ words ≠ [] ∧
        ∀ w ∈ words, w ≠ [] ∧ ∀ r ∈ w, ∃ xs ∈ tks, ∃ x ∈ xs, r ∈ x.text := by
  obtain ⟨shown, h1, h2⟩ := C50_default_any hu hf hne h
  refine ⟨shown, h1, fun line hline => ?_⟩
  have h0 : tks ≠ [] := by
    rintro rfl
    cases hf
    rw [align_nil] at h
    cases h
  exact shown_words h0 hne h2 line hline

/-! ## A case -/

local instance anySpaceLaws : Laws Rat := ratLaws (2 ^ 53) (le_refl _)

/-- **C56**, a case: negative widths and escape sequences. -/
theorem C56_any_case : ∃ shown, List.Forall₂ (Sprinkled ([] ++ seqsOf styledSpans)) shown styledLines ∧
    ∀ line ∈ shown, ∃ words e, line = List.intercalate [0x20] words ++ e ∧ (e = [] ∨ e = [0x2D]) ∧ words ≠ [] ∧
      ∀ w ∈ words, w ≠ [] ∧ ∀ r ∈ w, ∃ xs ∈ styledSpans, ∃ x ∈ xs, r ∈ x.text := by
  obtain ⟨l', h⟩ := lines_of (l := new Env.ascii (dictOf sampleLines) [unit, belowQ]) (rt := backward) (ts := styledWord)
    (w := Arith.ofInt 4) (ls := styledLines) (by decide +kernel)
  exact C56_any .new (styled_found backward (fun _ => rfl)) (by decide +kernel)
    (lossless_builtin rfl rfl) (by decide +kernel) (within_int 300 10000 (by decide) (by decide) (by decide))
    (by intro k hk; simp only [List.mem_cons, List.not_mem_nil, or_false] at hk; rcases hk with rfl | rfl | rfl | rfl <;> decide +kernel)
    (by decide +kernel) (by decide +kernel) (by decide +kernel) h

end Verif.Props
