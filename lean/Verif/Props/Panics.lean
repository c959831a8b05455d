import Verif.Proofs.LBPanics
import Verif.Props.History

/-! # C109: line breakers after a panic -/

namespace Verif.Props
open Verif.Go Verif.Model Verif.Model.LB Verif.Spec Verif.Spec.Ansi Verif.Spec.LB Verif.Proofs Verif.Proofs.LB

section
variable {F : Type} [Arith F] {env : Env} {dict : Dictionary} {opts : List (Opt F)} {l l' : LineBreaker F}
  {seqs seqs' seqsT : List (List Rune)} {tokens : List (List Rune)}

/-- **C109**, the model: `alignL` has the results of LeftAlignUniform, and the line breaker it leaves when it returns. -/
theorem C109_model (rt : Runtime) (env : Env) (l : LineBreaker F) (tokens : List (List Rune)) (maxWidth : F) :
    (alignL rt env l tokens maxWidth).2 = (leftAlignUniform rt env l tokens maxWidth).map Prod.fst ∧
    ∀ r l', leftAlignUniform rt env l tokens maxWidth = .ok (r, l') → (alignL rt env l tokens maxWidth).1 = l' :=
  ⟨alignL_result rt env l tokens maxWidth, fun _ _ h => alignL_after rt env l tokens maxWidth h⟩

theorem sprinkled_mono {S T : List (List Rune)} (h : ∀ s ∈ S, s ∈ T) {a b : List Rune} (hs : Sprinkled S a b) : Sprinkled T a b := by
  induction hs with
  | nil => exact .nil
  | rune r _ ih => exact .rune r ih
  | seq s hs _ ih => exact .seq s (h s hs) ih

theorem hasSeqs_mem {rt : Runtime} {tks : List (List Span)} (h : HasSeqs rt env tokens seqs)
    (hf : List.Forall₂ (Found rt env) tokens tks) : ∀ s ∈ seqsOf tks, s ∈ seqs := by
  induction hf with
  | nil => intro s hs; simp [seqsOf] at hs
  | @cons t xs ts xss g gs ih =>
    intro s hs
    have e : seqsOf (xs :: xss) = seqsOf [xs] ++ seqsOf xss := by simp [seqsOf]
    rw [e, List.mem_append] at hs
    rcases hs with hs | hs
    · simp only [seqsOf, List.flatMap_cons, List.flatMap_nil, List.append_nil, List.mem_flatMap] at hs
      obtain ⟨x, hx, hs⟩ := hs
      have := h t (by simp) xs g x hx
      simp only [List.mem_cons, List.not_mem_nil, or_false] at hs
      rcases hs with rfl | rfl
      · exact this.1
      · exact this.2
    · exact ih (fun t ht => h t (by simp [ht])) s hs

/-- **C109.** Two line breakers made with the same options and used in any calls, some of which panicked: the next call
panics on both in the same way, sets the words on none of them, or gives the same lines on both, in which sequences of the
words and of the words of their own earlier calls are inserted. -/
theorem C109_usable (rt : Runtime) (h : Survived env dict opts l seqs) (h' : Survived env dict opts l' seqs')
    (tokens : List (List Rune)) (ht : HasSeqs rt env tokens seqsT) (maxWidth : F) :
    Alike (seqs ++ seqsT) (seqs' ++ seqsT)
      (leftAlignUniform rt env l tokens maxWidth) (leftAlignUniform rt env l' tokens maxWidth) := by
  obtain ⟨t, s⟩ := survived_twin h
  obtain ⟨t', s'⟩ := survived_twin h'
  have hn : List.Forall₂ (SameNodes rt env l') tokens tokens := by
    simp only [List.forall₂_same]
    exact fun _ _ => rfl
  rcases align_same rt (twins t t') s s' hn maxWidth with
    e | e | ⟨lines, lines', m, m', x, x', shown, h1, h2, h3, h4, h5, h6⟩
  · exact Or.inl e
  · exact Or.inr (Or.inl e)
  · have k := hasSeqs_mem ht h3
    have k' := hasSeqs_mem ht h4
    refine Or.inr (Or.inr ⟨lines, lines', m, m', shown, h1, h2, h5.imp (fun _ _ => sprinkled_mono ?_), h6.imp (fun _ _ => sprinkled_mono ?_)⟩)
    · intro s hs
      rcases List.mem_append.mp hs with hs | hs
      · simp [hs]
      · simp [k s hs]
    · intro s hs
      rcases List.mem_append.mp hs with hs | hs
      · simp [hs]
      · simp [k' s hs]

/-- **C109.** If no sequence was found in any word, the call after panics gives the result of a new line breaker. -/
theorem C109_as_new (rt : Runtime) (h : Survived env dict opts l seqs) (hs : ∀ s ∈ seqs, s = [])
    (tokens : List (List Rune)) (ht : HasSeqs rt env tokens [[]]) (maxWidth : F) :
    (alignL rt env l tokens maxWidth).2 = (alignL rt env (new env dict opts) tokens maxWidth).2 := by
  rw [alignL_result, alignL_result]
  have hm : ∀ s ∈ seqs ++ [([] : List Rune)], s = [] := by
    intro s h
    rcases List.mem_append.mp h with h | h
    · exact hs s h
    · simpa using h
  rcases C109_usable rt h .new tokens ht maxWidth with ⟨e, h1, h2⟩ | ⟨m, m', h1, h2⟩ | ⟨lines, lines', m, m', shown, h1, h2, h3, h4⟩
  · rw [h1, h2]; try rfl
  · rw [h1, h2]; try rfl
  · rw [h1, h2, sprinkled_all_nothing hm h3, sprinkled_all_nothing (by simp) h4]
    rfl

/-- **C109.** Whatever the call does, the renderers of earlier calls stay, with their texts, before those that the call
pushed, and the options are the same. -/
theorem C109_left (rt : Runtime) (env : Env) (l : LineBreaker F) (tokens : List (List Rune)) (maxWidth : F) :
    (alignL rt env l tokens maxWidth).1.toOptions = l.toOptions ∧
    l.attrList.map Attribute.text <+: (alignL rt env l tokens maxWidth).1.attrList.map Attribute.text := by
  refine ⟨rfl, ?_⟩
  obtain ⟨S, h1, h2⟩ := some_seqs rt env l tokens
  exact (tokensLoopL_leaves rt env l tokens h1 h2).grow

end

/-! ## Cases -/

/-- A hyphenator that panics for some word, and leaves others whole. -/
def fragile : SplitFunc := fun w => if w = runesOf "boomboom" then .error .explicit else .ok [w]

/-- A call on a line breaker with this hyphenator. -/
def fragileCall (l : LineBreaker Rat) (tokens : List String) (w : Int) : LineBreaker Rat × Res (Option (List (List Rune))) :=
  alignL forward Env.ascii l (tokens.map runesOf) (Arith.ofInt w)

theorem hasSeqs_cons {rt : Runtime} {env : Env} {t : List Rune} {ts seqs : List (List Rune)} {xs : List Span} (h : Found rt env t xs)
    (hx : ∀ x ∈ xs, x.start ∈ seqs ∧ x.stop ∈ seqs) (hs : HasSeqs rt env ts seqs) : HasSeqs rt env (t :: ts) seqs := by
  intro u hu ys hy
  rcases List.mem_cons.mp hu with rfl | hu
  · have := found_one (.cons h .nil) (.cons hy .nil)
    rw [List.cons.injEq] at this
    rw [this.1]
    exact hx
  · exact hs u hu ys hy

theorem hasSeqs_nil {rt : Runtime} {env : Env} {seqs : List (List Rune)} : HasSeqs rt env [] seqs := fun _ h => by cases h

/-- The hyphenator panics after a word in bold was seen. The next call sets another word, in bold: the renderer that opens
the style is still there. After words without style, nothing is seen of the panic. -/
theorem panic_case :
    (fragileCall (demo [.hyphenator (some fragile)]) ["\x1b[1maaaa", "boomboom"] 10).2 = .error .explicit ∧
    (fragileCall (fragileCall (demo [.hyphenator (some fragile)]) ["\x1b[1maaaa", "boomboom"] 10).1 ["bbbb"] 10).2 =
      .ok (some [runesOf "\x1b[1mbbbb"]) ∧
    (fragileCall (fragileCall (demo [.hyphenator (some fragile)]) ["aaaa", "boomboom"] 10).1 ["bbbb"] 10).2 =
      .ok (some [runesOf "bbbb"]) := by
  decide +kernel

example : Survived Env.ascii (dictOf sampleLines) [unit, .hyphenator (some fragile)]
    (fragileCall (demo [.hyphenator (some fragile)]) ["\x1b[1maaaa", "boomboom"] 10).1 ([] ++ ["\x1b[1m", ""].map runesOf) :=
  .call forward _ _ .new (hasSeqs_cons (xs := [⟨runesOf "\x1b[1m", runesOf "aaaa", []⟩]) (found_run (by decide +kernel)) (by decide +kernel)
    (hasSeqs_cons (xs := [⟨[], runesOf "boomboom", []⟩]) (found_run (by decide +kernel)) (by decide +kernel) hasSeqs_nil))

example : Survived Env.ascii (dictOf sampleLines) [unit, .hyphenator (some fragile)]
    (fragileCall (demo [.hyphenator (some fragile)]) ["aaaa", "boomboom"] 10).1 ([] ++ [[]]) ∧
    HasSeqs forward Env.ascii (["bbbb"].map runesOf) [[]] :=
  ⟨.call forward _ _ .new (hasSeqs_cons (xs := [⟨[], runesOf "aaaa", []⟩]) (found_run (by decide +kernel)) (by decide +kernel)
    (hasSeqs_cons (xs := [⟨[], runesOf "boomboom", []⟩]) (found_run (by decide +kernel)) (by decide +kernel) hasSeqs_nil)),
   hasSeqs_cons (xs := [⟨[], runesOf "bbbb", []⟩]) (found_run (by decide +kernel)) (by decide +kernel) hasSeqs_nil⟩

end Verif.Props
