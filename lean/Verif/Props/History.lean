import Verif.Proofs.LBHistory
import Verif.Props.AnyBreaks
import Verif.Props.LinebreakCases
import Verif.Props.StyledCases
import Verif.Props.Float64Cases

/-! # C61, C67 for any options, any width and any numbers, float64 included -/

namespace Verif.Props
open Verif.Go Verif.Model Verif.Model.LB Verif.Spec Verif.Spec.Ansi Verif.Spec.LB Verif.Proofs Verif.Proofs.LB

section
variable {F : Type} [Arith F] {env : Env} {dict : Dictionary} {opts : List (Opt F)} {l l' : LineBreaker F}
  {seqs seqs' : List (List Rune)} {tokens tokens' : List (List Rune)} {tks tks' : List (List Span)}

/-- Two results of LeftAlignUniform are alike: the same panic, no lines in both, or the same lines, in which sequences of
`S` are inserted for the first one and sequences of `S'` for the second one. -/
def Alike (S S' : List (List Rune)) (r r' : Res (Option (List (List Rune)) × LineBreaker F)) : Prop :=
  (∃ e, r = .error e ∧ r' = .error e) ∨
  (∃ l₁ l₂, r = .ok (none, l₁) ∧ r' = .ok (none, l₂)) ∨
  ∃ lines lines' l₁ l₂ shown, r = .ok (some lines, l₁) ∧ r' = .ok (some lines', l₂) ∧
    List.Forall₂ (Sprinkled S) shown lines ∧ List.Forall₂ (Sprinkled S') shown lines'

theorem found_one {rt : Runtime} (h : List.Forall₂ (Found rt env) tokens tks) (h' : List.Forall₂ (Found rt env) tokens tks') :
    tks' = tks := by
  induction h generalizing tks' with
  | nil => cases h'; rfl
  | cons g _ ih =>
    cases h' with
    | cons g' gs' =>
      obtain ⟨_, _, a1, a2⟩ := g
      obtain ⟨_, _, b1, b2⟩ := g'
      rw [a1] at b1
      cases b1
      rw [← a2, ← b2, ih gs']

theorem twins {l l' m : LineBreaker F} (h : Twin l m) (h' : Twin l' m) : Twin l l' :=
  ⟨h.options.trans h'.options.symm, h.space.trans h'.space.symm, h.hyphen.trans h'.hyphen.symm⟩

/-- **C67** (partial: the texts between the sequences are compared, one by one, empty ones left out; see `C67_inside_fails`).
For any options under which a punctuator splits the empty text into nothing, as the default one does, for any width and any
numbers: the words in which the same texts are found give the same panic, no lines or the same lines with sequences of the
words and of earlier calls inserted. The histories may differ too. -/
theorem C67_all_options_partial (rt : Runtime) (hu : AnyUsed env dict opts l seqs) (hu' : AnyUsed env dict opts l' seqs')
    (hp : callSplit (new env dict opts).punctuator [] = .ok []) (hf : List.Forall₂ (Found rt env) tokens tks)
    (hf' : List.Forall₂ (Found rt env) tokens' tks') (ht : fullTexts tks = fullTexts tks') (maxWidth : F) :
    Alike (seqs ++ seqsOf tks) (seqs' ++ seqsOf tks')
      (leftAlignUniform rt env l tokens maxWidth) (leftAlignUniform rt env l' tokens' maxWidth) := by
  obtain ⟨t, s⟩ := anyUsed_twin hu
  obtain ⟨t', s'⟩ := anyUsed_twin hu'
  have hp' : callSplit l'.punctuator [] = .ok [] := by rw [t'.options]; exact hp
  have hn : List.Forall₂ (SameNodes rt env l') tokens tokens' := by
    clear hu hu'
    induction hf generalizing tokens' tks' with
    | nil =>
      cases hf' with
      | nil => exact .nil
      | cons _ _ => simp [fullTexts] at ht
    | cons g gs ih =>
      cases hf' with
      | nil => simp [fullTexts] at ht
      | cons g' gs' =>
        simp only [fullTexts, List.map_cons, List.cons.injEq] at ht
        refine .cons ?_ (ih gs' ht.2)
        unfold SameNodes
        rw [found_texts l' g, found_texts l' g', textNodes_full env l' hp', ht.1, ← textNodes_full env l' hp']
  rcases align_same rt (twins t t') s s' hn maxWidth with h | h | ⟨lines, lines', m, m', x, x', shown, h1, h2, h3, h4, h5, h6⟩
  · exact Or.inl h
  · exact Or.inr (Or.inl h)
  · rw [found_one hf h3] at h5
    rw [found_one hf' h4] at h6
    exact Or.inr (Or.inr ⟨lines, lines', m, m', shown, h1, h2, h5, h6⟩)

/-- **C61** (partial: the sequences inserted depend on the history, see `C61_styled_fails`). For any options, any width,
any numbers and any words: after any history, a line breaker panics as a new one, returns no lines as a new one, or returns
the same lines, in which sequences of the words, and for the used one of earlier calls, are inserted. -/
theorem C61_any_partial (rt : Runtime) (hu : AnyUsed env dict opts l seqs) (tokens : List (List Rune)) (maxWidth : F) :
    ((leftAlignUniform rt env l tokens maxWidth).map Prod.fst =
        (leftAlignUniform rt env (new env dict opts) tokens maxWidth).map Prod.fst) ∨
    ∃ tks, List.Forall₂ (Found rt env) tokens tks ∧ Alike (seqs ++ seqsOf tks) (seqsOf tks)
      (leftAlignUniform rt env l tokens maxWidth) (leftAlignUniform rt env (new env dict opts) tokens maxWidth) := by
  obtain ⟨t, s⟩ := anyUsed_twin hu
  have hn : List.Forall₂ (SameNodes rt env (new env dict opts)) tokens tokens := by
    simp only [List.forall₂_same]
    exact fun _ _ => rfl
  rcases align_same rt t s (S' := []) (fun a h => by cases h) hn maxWidth with
    ⟨e, h1, h2⟩ | ⟨m, m', h1, h2⟩ | ⟨lines, lines', m, m', x, x', shown, h1, h2, h3, h4, h5, h6⟩
  · left; rw [h1, h2]; try rfl
  · left; rw [h1, h2]; try rfl
  · have := found_one h3 h4
    subst this
    exact Or.inr ⟨_, h3, Or.inr (Or.inr ⟨lines, lines', m, m', shown, h1, h2, h5, h6⟩)⟩

theorem sprinkled_all_nothing {S : List (List Rune)} (hs : ∀ s ∈ S, s = []) {a b : List (List Rune)}
    (h : List.Forall₂ (Sprinkled S) a b) : b = a := by
  induction h with
  | nil => rfl
  | cons h _ ih => rw [ih, sprinkled_nothing hs h]

/-- **C61** (partial: no sequence is found in the words). After any history, the result is the one of a new line breaker,
with sequences of earlier calls inserted in the lines; and it is the same result if none was found in earlier calls. -/
theorem C61_unstyled_words_partial (rt : Runtime) (hu : AnyUsed env dict opts l seqs)
    (hf : List.Forall₂ (Found rt env) tokens tks) (hn : ∀ s ∈ seqsOf tks, s = []) (maxWidth : F) :
    ((leftAlignUniform rt env l tokens maxWidth).map Prod.fst =
        (leftAlignUniform rt env (new env dict opts) tokens maxWidth).map Prod.fst) ∨
    ((∃ s ∈ seqs, s ≠ []) ∧ ∃ lines lines' l₁ l₂, leftAlignUniform rt env l tokens maxWidth = .ok (some lines, l₁) ∧
      leftAlignUniform rt env (new env dict opts) tokens maxWidth = .ok (some lines', l₂) ∧
      List.Forall₂ (Sprinkled seqs) lines' lines) := by
  rcases C61_any_partial rt hu tokens maxWidth with h | ⟨tks', hf', h⟩
  · exact Or.inl h
  · rw [found_one hf hf'] at h
    rcases h with ⟨e, h1, h2⟩ | ⟨m, m', h1, h2⟩ | ⟨lines, lines', m, m', shown, h1, h2, h3, h4⟩
    · left; rw [h1, h2]; try rfl
    · left; rw [h1, h2]; try rfl
    · have e := sprinkled_all_nothing hn h4
      subst e
      have h5 : List.Forall₂ (Sprinkled seqs) lines' lines := h3.imp (fun t line h => by
        clear h1 h2 h3 h4
        induction h with
        | nil => exact .nil
        | rune r _ ih => exact .rune r ih
        | seq s hs _ ih =>
          rcases List.mem_append.mp hs with hs | hs
          · exact .seq s hs ih
          · rw [hn s hs]; exact ih)
      by_cases hs : ∃ s ∈ seqs, s ≠ []
      · exact Or.inr ⟨hs, lines, lines', m, m', h1, h2, h5⟩
      · left
        have : lines = lines' := sprinkled_all_nothing (by
          intro s h
          by_contra hne
          exact hs ⟨s, h, hne⟩) h5
        rw [h1, h2, this]; rfl

end

/-! ## Cases -/

/-- **C67** fails when a sequence divides a word: the parts are not hyphenated as the word. -/
theorem C67_inside_fails :
    linesOf forward (demo []) ["foobar"] 4 = .ok (some [runesOf "fo-", runesOf "obar"]) ∧
    linesOf forward (demo []) ["foo\x1b[1mbar\x1b[0m"] 4 = .ok none ∧
    linesOf64 forward (demo64 []) ["foobar"] 4 = .ok (some [runesOf "fo-", runesOf "obar"]) ∧
    linesOf64 forward (demo64 []) ["foo\x1b[1mbar\x1b[0m"] 4 = .ok none := by
  decide +kernel

/-- The default punctuator divides the empty text into nothing, whatever the other options. -/
theorem splits_nothing {F : Type} [Arith F] (env : Env) (dict : Dictionary) (opts : List (Opt F))
    (h : (defaultOptions opts).punctuator = none) : callSplit (new env dict opts).punctuator [] = .ok [] := by
  have e : (new env dict opts).punctuator = some (punctuatorBreakWord env) := by
    unfold new
    simp only [h]
  rw [e]
  rfl

theorem second64_ok {rt : Runtime} {l : LineBreaker F64} {before tokens : List String} {w : Int} {r : Option (List (List Rune))}
    (h : secondLines64 rt l before tokens w = .ok r) : ∃ r₁ l₁ l₂,
      leftAlignUniform rt Env.ascii l (before.map runesOf) (Arith.ofInt w) = .ok (r₁, l₁) ∧
      leftAlignUniform rt Env.ascii l₁ (tokens.map runesOf) (Arith.ofInt w) = .ok (r, l₂) := by
  unfold secondLines64 linesOf64 at h
  cases e : leftAlignUniform rt Env.ascii l (before.map runesOf) (Arith.ofInt w) with
  | error p => rw [e] at h; cases h
  | ok p =>
    rw [e] at h
    cases e2 : leftAlignUniform rt Env.ascii p.2 (tokens.map runesOf) (Arith.ofInt w) with
    | error q => simp only [ok_bind, e2] at h; cases h
    | ok q =>
      simp only [ok_bind, e2] at h
      have h' : q.1 = r := Except.ok.inj h
      subst h'
      exact ⟨p.1, p.2, q.2, rfl, e2⟩

/-- Options of the case below. -/
def looseOpts : List (Opt F64) := [unit64, .tolerance (Arith.ofInt 3), .hyphenPenalty (Arith.ofInt 70)]

/-- In float64: a line breaker that has set a styled text, and `foobar` in italics; a new one, and `foobar` without style. -/
theorem history_case : ∃ l₁ l₂ l₃,
    AnyUsed Env.ascii (dictOf sampleLines) looseOpts l₁ (["\x1b[1m", "", "", "\x1b[0m"].map runesOf) ∧
    leftAlignUniform forward Env.ascii l₁ (["\x1b[3mfoobar\x1b[0m"].map runesOf) (Arith.ofInt 4) =
      .ok (some (["\x1b[1m\x1b[3mfo-\x1b[0m\x1b[0m", "\x1b[1mobar\x1b[0m"].map runesOf), l₂) ∧
    leftAlignUniform forward Env.ascii (new Env.ascii (dictOf sampleLines) looseOpts) (["foobar"].map runesOf) (Arith.ofInt 4) =
      .ok (some (["fo-", "obar"].map runesOf), l₃) ∧
    Alike (["\x1b[1m", "", "", "\x1b[0m"].map runesOf ++ seqsOf [[⟨runesOf "\x1b[3m", runesOf "foobar", runesOf "\x1b[0m"⟩]])
      ([] ++ seqsOf [[⟨[], runesOf "foobar", []⟩]])
      (leftAlignUniform forward Env.ascii l₁ (["\x1b[3mfoobar\x1b[0m"].map runesOf) (Arith.ofInt 4))
      (leftAlignUniform forward Env.ascii (new Env.ascii (dictOf sampleLines) looseOpts) (["foobar"].map runesOf) (Arith.ofInt 4)) := by
  have h : secondLines64 forward (new Env.ascii (dictOf sampleLines) looseOpts) ["\x1b[1maaaa", "cccc\x1b[0m"]
      ["\x1b[3mfoobar\x1b[0m"] 4 =
      .ok (some (["\x1b[1m\x1b[3mfo-\x1b[0m\x1b[0m", "\x1b[1mobar\x1b[0m"].map runesOf)) := by decide +kernel
  have g : linesOf64 forward (new Env.ascii (dictOf sampleLines) looseOpts) ["foobar"] 4 = .ok (some (["fo-", "obar"].map runesOf)) := by
    decide +kernel
  obtain ⟨r₁, l₁, l₂, h1, h2⟩ := second64_ok h
  obtain ⟨l₃, h3⟩ : ∃ l₃, leftAlignUniform forward Env.ascii (new Env.ascii (dictOf sampleLines) looseOpts) (["foobar"].map runesOf)
      (Arith.ofInt 4) = .ok (some (["fo-", "obar"].map runesOf), l₃) := by
    unfold linesOf64 at g
    cases e : leftAlignUniform forward Env.ascii (new Env.ascii (dictOf sampleLines) looseOpts) (["foobar"].map runesOf)
      (Arith.ofInt 4) with
    | error p => rw [e] at g; cases g
    | ok p => rw [e] at g; exact ⟨p.2, congrArg Except.ok (Prod.ext (Except.ok.inj g) rfl)⟩
  have hf : List.Forall₂ (Found forward Env.ascii) (["\x1b[1maaaa", "cccc\x1b[0m"].map runesOf)
      [[⟨runesOf "\x1b[1m", runesOf "aaaa", []⟩], [⟨[], runesOf "cccc", runesOf "\x1b[0m"⟩]] :=
    .cons (found_run (by decide +kernel)) (.cons (found_run (by decide +kernel)) .nil)
  have hu : AnyUsed Env.ascii (dictOf sampleLines) looseOpts l₁ (["\x1b[1m", "", "", "\x1b[0m"].map runesOf) :=
    .call forward _ _ _ r₁ .new hf h1
  exact ⟨l₁, l₂, l₃, hu, h2, h3, C67_all_options_partial forward hu .new (splits_nothing _ _ _ rfl)
    (.cons (found_run (by decide +kernel)) .nil) (.cons (found_run (by decide +kernel)) .nil) (by decide +kernel) _⟩

end Verif.Props
