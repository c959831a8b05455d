import Verif.Props.AnyLimit
import Verif.Props.AnyReflow
import Verif.Props.Text

/-! # C74 and C75 for words of any runes -/

set_option linter.unusedSectionVars false

namespace Verif.Props
open Verif.Go Verif.Model Verif.Model.LB Verif.Spec Verif.Spec.Ansi Verif.Spec.LB Verif.Proofs Verif.Proofs.LB

/-- The runes of a text with sequences. -/
theorem sprinkled_runes {seqs : List (List Rune)} {t line : List Rune} (h : Sprinkled seqs t line) :
    ∀ r ∈ line, r ∈ t ∨ ∃ s ∈ seqs, r ∈ s := by
  induction h with
  | nil => intro r hr; cases hr
  | rune q _ ih =>
    intro r hr
    rcases List.mem_cons.mp hr with rfl | hr
    · exact Or.inl (by simp)
    · exact (ih r hr).imp_left (fun h => by simp [h])
  | seq s hs _ ih =>
    intro r hr
    rcases List.mem_append.mp hr with hr | hr
    · exact Or.inr ⟨s, hs, hr⟩
    · exact ih r hr

/-- The sequences found in words are made of their runes. -/
theorem seqs_mem {tokens : List (List Rune)} {tks : List (List Span)}
    (h : List.Forall₂ (fun t xs => xs.flatMap Span.runes = t) tokens tks) : ∀ s ∈ seqsOf tks, ∃ t ∈ tokens, ∀ r ∈ s, r ∈ t := by
  induction h with
  | nil => intro u hu; cases hu
  | @cons t xs ts tks h1 _ ih =>
    intro s hs
    simp only [seqsOf, List.flatMap_cons, List.mem_append] at hs ih
    rcases hs with hs | hs
    · obtain ⟨x, hx, hs⟩ := List.mem_flatMap.mp hs
      refine ⟨t, by simp, fun r hr => ?_⟩
      rw [← h1]
      refine List.mem_flatMap.mpr ⟨x, hx, ?_⟩
      simp only [List.mem_cons, List.not_mem_nil, or_false] at hs
      rcases hs with rfl | rfl <;> simp [Span.runes, hr]
    · obtain ⟨t', h2, h3⟩ := ih s hs
      exact ⟨t', by simp [h2], h3⟩

/-- **C74.** Strings of any bytes, with escape sequences too, given to a line breaker with the default options used on any words
whose sequences are made of runes of UTF-8, in any width: each line is the UTF-8 encoding of a text, and these texts show the text
of the words. The spans `tks` are those that StripToken finds; `h2` holds of words that do not end in a sequence cut in a
parameter (C93_found). -/
theorem C74_default_any {rt : Runtime} {env : Env} {dict : Dictionary} {l l' : LineBreaker F64} {seqs : List (List Rune)}
    {words : List (List Nat)} {tks : List (List Span)} {maxWidth : F64} {lines : List (List Nat)}
    (hu : AnyUsed env dict ([] : List (Opt F64)) l seqs) (hseq : ∀ s ∈ seqs, ∀ r ∈ s, IsScalar r)
    (hf : List.Forall₂ (Found rt env) (words.map stringRunes) tks)
    (h2 : List.Forall₂ (fun t xs => xs.flatMap Span.runes = t) (words.map stringRunes) tks)
    (hne : ∀ xs ∈ tks, xs.flatMap Span.text ≠ []) (h : leftAlignStrings rt env l words maxWidth = .ok (some lines, l')) :
    (∀ s ∈ seqs ++ seqsOf tks, ∀ r ∈ s, IsScalar r) ∧
    ∃ texts shown : List (List Rune), lines = texts.map utf8s ∧ lines.map stringRunes = texts ∧
      (∀ t ∈ texts, ∀ r ∈ t, IsScalar r) ∧ List.Forall₂ (Sprinkled (seqs ++ seqsOf tks)) shown texts ∧
      Reflow [0x20] (fun e => e = []) (CutAfter env (defaultOptions ([] : List (Opt F64)))) (joined (textsOf tks)) shown := by
  have hin : ∀ t ∈ words.map stringRunes, ∀ r ∈ t, IsScalar r := by
    intro t ht
    obtain ⟨w, _, rfl⟩ := List.mem_map.mp ht
    exact stringRunes_scalar w
  have hsq : ∀ s ∈ seqs ++ seqsOf tks, ∀ r ∈ s, IsScalar r := by
    intro s hs r hr
    rcases List.mem_append.mp hs with hs | hs
    · exact hseq s hs r hr
    · obtain ⟨t, h3, h4⟩ := seqs_mem h2 s hs
      exact hin t h3 r (h4 r hr)
  refine ⟨hsq, ?_⟩
  unfold leftAlignStrings at h
  cases e : leftAlignUniform rt env l (words.map stringRunes) maxWidth with
  | error p => rw [e] at h; cases h
  | ok p =>
    rw [e] at h
    obtain ⟨r, l''⟩ := p
    cases r with
    | none => cases h
    | some texts =>
      obtain ⟨shown, h3, h4⟩ := C50_default_any hu hf hne e
      have hshown : ∀ t ∈ shown, ∀ r ∈ t, IsScalar r := by
        intro t ht r hr
        rcases reflow_mem h4 t ht r hr with g | g | ⟨x, hx, g⟩
        · rw [List.mem_singleton] at g; subst g; decide
        · obtain ⟨u, hu, hr⟩ := mem_joined _ r g
          obtain ⟨v, hv, h5⟩ := texts_mem h2 u hu
          exact hin v hv r (h5 r hr)
        · have : x = [] ∨ x = [0x2D] := by
            rcases g with g | ⟨q, ⟨g, _⟩ | ⟨_, g⟩⟩
            · exact Or.inl g
            · exact Or.inl g
            · exact Or.inr g
          rcases this with rfl | rfl
          · cases hx
          · rw [List.mem_singleton] at hx; subst hx; decide
      have hs : ∀ t ∈ texts, ∀ r ∈ t, IsScalar r := by
        clear h e h4
        induction h3 with
        | nil => intro t ht; cases ht
        | @cons a b as bs h5 _ ih =>
          intro t ht r hr
          rcases List.mem_cons.mp ht with rfl | ht
          · rcases sprinkled_runes h5 r hr with g | ⟨s, hs, hr⟩
            · exact hshown a (by simp) r g
            · exact hsq s hs r hr
          · exact ih (fun t ht => hshown t (by simp [ht])) t ht r hr
      have hl : lines = texts.map utf8s := by
        have : lines = texts.map (fun line => writeRunesLoop line []) := by
          cases h; rfl
        rw [this]
        refine List.map_congr_left (fun t ht => ?_)
        rw [writeRunesLoop_eq, List.nil_append, flatMap_scalar t (hs t ht)]
      refine ⟨texts, shown, hl, ?_, hs, h3, h4⟩
      rw [hl, List.map_map]
      exact (List.map_congr_left (g := id) (fun t ht => stringRunes_utf8s t (hs t ht))).trans (List.map_id texts)

/-- **C75.** A text of any runes, with escape sequences too, divided into words by the tokenizer, then set with the default
options in any width, after any history: without the sequences, the spaces, and the hyphens added at the ends of lines, the lines
are the texts that StripToken finds in the words; and these words, with their sequences, are the text without spaces. -/
theorem C75_default_any {rt : Runtime} {env : Env} {dict : Dictionary} {l l' : LineBreaker F64} {seqs : List (List Rune)}
    {input : List Rune} {tokens : List (List Rune)} {tks : List (List Span)} {maxWidth : F64} {lines : List (List Rune)}
    (hu : AnyUsed env dict ([] : List (Opt F64)) l seqs) (ht : tokenizerBreakWord input = .ok tokens)
    (hf : List.Forall₂ (Found rt env) tokens tks)
    (h2 : List.Forall₂ (fun t xs => xs.flatMap Span.runes = t) tokens tks)
    (hne : ∀ xs ∈ tks, xs.flatMap Span.text ≠ [])
    (h : leftAlignUniform rt env l tokens maxWidth = .ok (some lines, l')) :
    (∃ shown bodies : List (List Rune), List.Forall₂ (Sprinkled (seqs ++ seqsOf tks)) shown lines ∧
      List.Forall₂ (fun s body => s = body ∨ s = body ++ [0x2D]) shown bodies ∧
      bodies.flatten.filter (fun r => !isSpace r) = (textsOf tks).flatten) ∧
    (tks.flatMap (·.flatMap Span.runes)) = input.filter (fun r => !isSpace r) := by
  obtain ⟨h3, h4⟩ := tokenizer_words ht
  obtain ⟨shown, h5, h6⟩ := C50_default_any hu hf hne h
  obtain ⟨bs, h7, h8⟩ := reflow_bodies (by intro r hr; rw [List.mem_singleton] at hr; subst hr; rfl) h6
  have hflat : tks.flatMap (·.flatMap Span.runes) = tokens.flatten := by
    clear hf h3 h4 h ht h5 h6 hne h7 h8
    induction h2 with
    | nil => rfl
    | cons e _ ih => rw [List.flatMap_cons, ih, e, List.flatten_cons]
  refine ⟨⟨shown, bs, h5, h7.imp ?_, ?_⟩, by rw [hflat, h3]⟩
  · rintro line body ⟨e, rfl, he⟩
    have : e = [] ∨ e = [0x2D] := by
      rcases he with he | he | ⟨q, ⟨he, _⟩ | ⟨_, he⟩⟩
      · exact Or.inl he
      · exact Or.inl he
      · exact Or.inl he
      · exact Or.inr he
    rcases this with rfl | rfl
    · exact Or.inl (by simp)
    · exact Or.inr rfl
  · rw [h8]
    show (chText [] (joined (textsOf tks))).filter _ = _
    rw [joined_text, List.filter_eq_self]
    intro r hr
    obtain ⟨u, hu, hr⟩ := List.mem_flatten.mp hr
    obtain ⟨t, h9, h10⟩ := texts_mem h2 u hu
    rw [(h4 t h9).2 r (h10 r hr)]
    rfl

/-! ## Cases -/

theorem boldPieces_whole : List.Forall₂ (fun t xs => xs.flatMap Span.runes = t) (boldPieces.map runesOf) boldPieceSpans :=
  .cons (by decide +kernel) (.cons (by decide +kernel) (.cons (by decide +kernel) (.cons (by decide +kernel) .nil)))

/-- **C74**, a case: the strings of `boldPieces`. -/
theorem C74_default_any_case : ∃ lines l',
    leftAlignStrings forward Env.ascii (new Env.ascii (dictOf sampleLines) []) ((boldPieces.map runesOf).map utf8s)
      (Arith.ofInt 86022 : F64) = .ok (some lines, l') ∧
    ∃ texts shown : List (List Rune), lines = texts.map utf8s ∧ lines.map stringRunes = texts ∧
      (∀ t ∈ texts, ∀ r ∈ t, IsScalar r) ∧ List.Forall₂ (Sprinkled ([] ++ seqsOf boldPieceSpans)) shown texts ∧
      Reflow [0x20] (fun e => e = []) (CutAfter Env.ascii (defaultOptions ([] : List (Opt F64)))) (joined (textsOf boldPieceSpans))
        shown := by
  obtain ⟨lines, l', h⟩ := C79_exact_any_case_partial.1
  have e : ((boldPieces.map runesOf).map utf8s).map stringRunes = boldPieces.map runesOf := by decide +kernel
  have h' := C74_encoded_words (rt := forward) (env := Env.ascii) (l := new Env.ascii (dictOf sampleLines) [])
    (maxWidth := (Arith.ofInt 86022 : F64)) (words := boldPieces.map runesOf) (by decide +kernel)
  rw [h] at h'
  refine ⟨_, _, h', ?_⟩
  exact (C74_default_any (seqs := []) .new (by simp) (by rw [e]; exact boldPieces_found) (by rw [e]; exact boldPieces_whole)
    (by decide +kernel) h').2

/-- **C75**, a case: a text with words in bold. -/
theorem C75_default_any_case : ∃ lines l' tokens,
    tokenizerBreakWord (runesOf " \x1b[1maabbdcc\x1b[0m  zz\naabbdcc zzz\x1b[0m") = .ok tokens ∧
    leftAlignUniform forward Env.ascii (new Env.ascii (dictOf sampleLines) []) tokens (Arith.ofInt 86022 : F64) =
      .ok (some lines, l') ∧
    ∃ shown bodies : List (List Rune), List.Forall₂ (Sprinkled ([] ++ seqsOf boldPieceSpans)) shown lines ∧
      List.Forall₂ (fun s body => s = body ∨ s = body ++ [0x2D]) shown bodies ∧
      bodies.flatten.filter (fun r => !isSpace r) = runesOf "aabbdcczzaabbdcczzz" := by
  obtain ⟨lines, l', h⟩ := C79_exact_any_case_partial.1
  have ht : tokenizerBreakWord (runesOf " \x1b[1maabbdcc\x1b[0m  zz\naabbdcc zzz\x1b[0m") = .ok (boldPieces.map runesOf) := by
    decide +kernel
  obtain ⟨⟨shown, bodies, h1, h2, h3⟩, -⟩ := C75_default_any (seqs := []) .new ht boldPieces_found boldPieces_whole
    (by decide +kernel) h
  exact ⟨lines, l', _, ht, h, shown, bodies, h1, h2, h3.trans (by decide +kernel)⟩

end Verif.Props
