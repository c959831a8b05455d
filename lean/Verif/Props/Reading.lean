import Verif.Props.Ansi
import Verif.Proofs.AnsiReading

/-! # C102 and C42: what StripToken returns, for any text -/

namespace Verif.Props
open Verif.Go Verif.Model Verif.Model.Ansi Verif.Spec.Ansi Verif.Proofs.Ansi

/-- **C102.** The texts that can be read as units are exactly those that do not end within a control sequence, in a
parameter of three digits. -/
theorem C102_readable (env : Env) (hd : AsciiDigits env) (l : List Rune) :
    (∃ us, Reads env l us) ↔ ¬ EndsLong env l := by
  constructor
  · rintro ⟨us, hu⟩ hc
    have := (overruns_iff hd).mpr hc
    clear hc
    have hdec := decoded_of_reads hd hu
    clear hu
    induction hdec with
    | nil => exact overruns_nil env this
    | text h1 _ _ ih =>
      cases this with
      | here h => rw [h1] at h; cases h
      | seq h _ _ => rw [h1] at h; cases h
      | text _ h => exact ih h
    | seq h1 h2 _ ih =>
      cases this with
      | here h => rw [h1] at h; cases h; omega
      | seq h _ h' => rw [h1] at h; cases h; exact ih h'
      | text h _ => rw [h1] at h; cases h
  · intro hc
    exact reads_exists hd _ _ (Nat.le_refl _) (fun h => hc ((overruns_iff hd).mp h))

/-- **C102.** A text that does not end within a control sequence, in a parameter of three digits, is read as units in
exactly one way; end to end the units are the text; and StripToken returns exactly the groups of these units. -/
theorem C102_results (env : Env) (hd : AsciiDigits env) (mem : List Rune) (v : View) (h : IsSlice mem v)
    (hc : ¬ EndsLong env (v.elems mem)) :
    ∃ us toks, Reads env (v.elems mem) us ∧ (∀ us', Reads env (v.elems mem) us' → us' = us) ∧
      us.flatMap Lexeme.runes = v.elems mem ∧
      stripToken env mem v = .ok (toks, mem) ∧ toks.map (tokParts mem) = results us := by
  have ho : ¬ Overruns env (v.elems mem) := fun h => hc ((overruns_iff hd).mp h)
  obtain ⟨us, hus⟩ := reads_exists hd _ _ (Nat.le_refl _) ho
  rcases stripToken_spec env hd mem v h.1 h.2 with ⟨_, _, h2⟩ | ⟨toks, h1, h2⟩
  · exact absurd h2 ho
  · refine ⟨us, toks, hus, fun us' => reads_unique hd hus, reads_runes hus, h2, ?_⟩
    have hdec := decoded_of_reads hd hus
    unfold results
    by_cases hne : us = []
    · rw [if_pos hne]
      have he := (decoded_empty hdec).mp hne
      have hz : v.len = 0 := by
        have := View.elems_length h.1
        rw [he] at this; exact this.symm
      have hl := run_length h1
      have ht : toks.length = 1 := by omega
      obtain ⟨tok, rfl⟩ := List.length_eq_one_iff.mp ht
      have := run_whole h1 h.1 ho
      rw [he] at this
      simp only [List.flatMap_cons, List.flatMap_nil, List.append_nil, tokRunes, List.append_eq_nil_iff] at this
      simp [tokParts, this.1.1, this.1.2, this.2]
    · rw [if_neg hne]
      exact run_results h1 h.1 ho hdec hne

/-- The text `a ESC [ K b ESC ESC [ 1 m ESC [ 4 m ESC [ 1 2 3 m c ESC [ 0 m ESC [ m ESC [ 1`. -/
def oddText : List Rune := [0x61, 0x1B, 0x5B, 0x4B, 0x62, 0x1B, 0x1B, 0x5B, 0x31, 0x6D, 0x1B, 0x5B, 0x34, 0x6D,
  0x1B, 0x5B, 0x31, 0x32, 0x33, 0x6D, 0x63, 0x1B, 0x5B, 0x30, 0x6D, 0x1B, 0x5B, 0x6D, 0x1B, 0x5B, 0x31]

/-- Its units: the second ESC is taken by the one before it, so that `[ 1 m` is text; a parameter of three digits is
not a style. -/
def oddUnits : List Lexeme := [.text [0x61], .other [0x1B, 0x5B, 0x4B], .text [0x62, 0x1B, 0x1B, 0x5B, 0x31, 0x6D],
  .start [0x1B, 0x5B, 0x34, 0x6D], .other [0x1B, 0x5B, 0x31, 0x32, 0x33, 0x6D], .text [0x63],
  .stop [0x1B, 0x5B, 0x30, 0x6D], .stop [0x1B, 0x5B, 0x6D], .other [0x1B, 0x5B, 0x31]]

theorem oddText_reads : Reads Env.ascii oddText oddUnits := by
  have dig : ∀ ds : List Rune, ds.all (fun r => decide (0x30 ≤ r ∧ r ≤ 0x39)) = true → ∀ r ∈ ds,
      Env.ascii.isDigit r = true := by
    intro ds h r hr
    have := List.all_eq_true.mp h r hr
    simpa [Env.ascii] using this
  have e9 : Reads Env.ascii [0x1B, 0x5B, 0x31] [.other [0x1B, 0x5B, 0x31]] :=
    Reads.unfinished (o := introducer) (ds := [0x31]) .first (dig _ (by decide)) (by decide)
  have e8 := Reads.stop (env := Env.ascii) (s := ⟨[], [], 0x6D⟩) ⟨by simp, by simp, by decide, by decide⟩
    ⟨by decide, by simp⟩ (Or.inr (Or.inr ⟨rfl, by simp [CtlSeq.ZeroArg]⟩)) e9
  have e7 := Reads.stop (env := Env.ascii) (s := ⟨[0x30], [], 0x6D⟩) ⟨dig _ (by decide), by simp, by decide, by decide⟩
    ⟨by decide, by simp⟩ (Or.inr (Or.inr ⟨rfl, by simp [CtlSeq.ZeroArg]⟩)) e8
  have e6 := Reads.text (env := Env.ascii) (t := [0x63]) (.rune (by decide) .nil) (by simp) (Or.inr ⟨_, rfl⟩) e7
  have e5 := Reads.long (env := Env.ascii) (h := [0x1B, 0x5B, 0x31, 0x32, 0x33]) (r := 0x6D)
    ⟨introducer, 0x31, 0x32, 0x33, .first, by decide, by decide, by decide, rfl⟩ e6
  have e4 := Reads.start (env := Env.ascii) (s := ⟨[0x34], [], 0x6D⟩) ⟨dig _ (by decide), by simp, by decide, by decide⟩
    ⟨by decide, by simp⟩ (Or.inr (Or.inr ⟨rfl, by simp [CtlSeq.ZeroArg]⟩)) e5
  have e3 := Reads.text (env := Env.ascii) (t := [0x62, 0x1B, 0x1B, 0x5B, 0x31, 0x6D])
    (.rune (by decide) (.pair (by decide) (.rune (by decide) (.rune (by decide) (.rune (by decide) .nil))))) (by simp)
    (Or.inr ⟨_, rfl⟩) e4
  have e2 := Reads.other (env := Env.ascii) (s := ⟨[], [], 0x4B⟩) ⟨by simp, by simp, by decide, by decide⟩
    ⟨by decide, by simp⟩ (by simp [CtlSeq.Starts]) (by simp [CtlSeq.Stops]) e3
  exact Reads.text (env := Env.ascii) (t := [0x61]) (.rune (by decide) .nil) (by simp) (Or.inr ⟨_, rfl⟩) e2

example : results oddUnits =
    [([], [0x61, 0x1B, 0x5B, 0x4B], []), ([], [0x62, 0x1B, 0x1B, 0x5B, 0x31, 0x6D], []),
      ([0x1B, 0x5B, 0x34, 0x6D], [0x1B, 0x5B, 0x31, 0x32, 0x33, 0x6D], []),
      ([], [0x63], [0x1B, 0x5B, 0x30, 0x6D]), ([], [], [0x1B, 0x5B, 0x6D]), ([], [0x1B, 0x5B, 0x31], [])] := by
  decide

example : IsSlice oddText ⟨0, 31⟩ ∧ ¬ EndsLong Env.ascii (View.elems oddText ⟨0, 31⟩) :=
  ⟨by decide, (C102_readable Env.ascii ascii_digits _).mp ⟨oddUnits, oddText_reads⟩⟩

example : (stripToken Env.ascii oddText ⟨0, 31⟩).map (fun r => r.1.map (tokParts oddText)) = .ok (results oddUnits) := by
  decide +kernel

/-- A text that cannot be read: `ESC [ 1 2 3`. -/
example : ¬ ∃ us, Reads Env.ascii [0x1B, 0x5B, 0x31, 0x32, 0x33] us := by
  rw [C102_readable Env.ascii ascii_digits, Classical.not_not, ← overruns_iff ascii_digits]
  exact .here (by decide +kernel)

/-! ## C42 -/

/-- The text before the current unit. -/
def pending : Partial → List Rune
  | .reading _ t => t
  | _ => []

/-- The start sequence before the current unit. -/
def pendingStart : Partial → List (List Rune)
  | .opened s => [s]
  | .reading s _ => if s = [] then [] else [s]
  | .idle => []

theorem resultsFrom_starts (us : List Lexeme) (hne : ∀ s ∈ startUnits us, s ≠ []) : ∀ st, (∀ s ∈ pendingStart st, s ≠ []) →
    ((resultsFrom st us).map (fun p => p.1)).filter (fun s => decide (s ≠ [])) = pendingStart st ++ startUnits us := by
  induction us with
  | nil =>
    intro st h
    cases st with
    | idle => rfl
    | opened s =>
      have : s ≠ [] := h s (by simp [pendingStart])
      simp [resultsFrom, pendingStart, startUnits, this]
    | reading s t => by_cases hs : s = [] <;> simp [resultsFrom, pendingStart, startUnits, hs]
  | cons u us ih =>
    have ih := ih (fun s h => hne s (by cases u <;> simp_all [startUnits]))
    intro st h
    cases u with
    | text t =>
      have e : startUnits (.text t :: us) = startUnits us := rfl
      rw [e]
      cases st with
      | idle => rw [resultsFrom, ih _ (by simp [pendingStart])]; simp [pendingStart]
      | opened s =>
        have hs : s ≠ [] := h s (by simp [pendingStart])
        rw [resultsFrom, ih _ (by simp [pendingStart, hs])]; simp [pendingStart, hs]
      | reading s t' =>
        have := ih (.reading [] t) (by simp [pendingStart])
        by_cases hs : s = [] <;> simp_all [resultsFrom, pendingStart]
    | start s' =>
      have e : startUnits (.start s' :: us) = s' :: startUnits us := rfl
      have hs' : s' ≠ [] := hne s' (by rw [e]; simp)
      have := ih (.opened s') (by simp [pendingStart, hs'])
      rw [e]
      cases st with
      | idle => rw [resultsFrom, this]; simp [pendingStart]
      | opened s =>
        have hs : s ≠ [] := h s (by simp [pendingStart])
        simp_all [resultsFrom, pendingStart]
      | reading s t' => by_cases hs : s = [] <;> simp_all [resultsFrom, pendingStart]
    | stop p =>
      have e : startUnits (.stop p :: us) = startUnits us := rfl
      have := ih .idle (by simp [pendingStart])
      rw [e]
      cases st with
      | idle => simp_all [resultsFrom, pendingStart]
      | opened s =>
        have hs : s ≠ [] := h s (by simp [pendingStart])
        simp_all [resultsFrom, pendingStart]
      | reading s t' => by_cases hs : s = [] <;> simp_all [resultsFrom, pendingStart]
    | other o =>
      have e : startUnits (.other o :: us) = startUnits us := rfl
      have := ih .idle (by simp [pendingStart])
      rw [e]
      cases st with
      | idle => simp_all [resultsFrom, pendingStart]
      | opened s =>
        have hs : s ≠ [] := h s (by simp [pendingStart])
        simp_all [resultsFrom, pendingStart]
      | reading s t' =>
        rw [resultsFrom, ih _ (by simpa only [pendingStart] using h)]; rfl

theorem resultsFrom_stops (us : List Lexeme) (hne : ∀ s ∈ stopUnits us, s ≠ []) : ∀ st,
    ((resultsFrom st us).map (fun p => p.2.2)).filter (fun s => decide (s ≠ [])) = stopUnits us := by
  induction us with
  | nil => intro st; cases st <;> rfl
  | cons u us ih =>
    have ih := ih (fun s h => hne s (by cases u <;> simp_all [stopUnits]))
    intro st
    cases u with
    | stop p =>
      have e : stopUnits (.stop p :: us) = p :: stopUnits us := rfl
      have hp : p ≠ [] := hne p (by rw [e]; simp)
      rw [e]
      cases st <;> simp_all [resultsFrom]
    | text t =>
      rw [show stopUnits (.text t :: us) = stopUnits us from rfl]
      cases st <;> simp_all [resultsFrom]
    | start t =>
      rw [show stopUnits (.start t :: us) = stopUnits us from rfl]
      cases st <;> simp_all [resultsFrom]
    | other t =>
      rw [show stopUnits (.other t :: us) = stopUnits us from rfl]
      cases st <;> simp_all [resultsFrom]

theorem resultsFrom_text (us : List Lexeme) : ∀ st, ∀ p ∈ resultsFrom st us,
    (∃ vs, vs <:+: us ∧ (∀ u ∈ vs, InText u) ∧ p.2.1 = vs.flatMap Lexeme.runes) ∨
    (∃ vs, vs <+: us ∧ (∀ u ∈ vs, InText u) ∧ p.2.1 = pending st ++ vs.flatMap Lexeme.runes) := by
  induction us with
  | nil =>
    intro st p hp
    right
    refine ⟨[], List.prefix_refl _, by simp, ?_⟩
    cases st <;> simp_all [resultsFrom, pending]
  | cons u us ih =>
    intro st p hp
    -- a later result
    have later : ∀ st', pending st' = [] → p ∈ resultsFrom st' us →
        ∃ vs, vs <:+: u :: us ∧ (∀ u ∈ vs, InText u) ∧ p.2.1 = vs.flatMap Lexeme.runes := by
      intro st' h0 h
      rcases ih st' p h with ⟨vs, h1, h2, h3⟩ | ⟨vs, h1, h2, h3⟩
      · exact ⟨vs, h1.trans (List.suffix_cons u us).isInfix, h2, h3⟩
      · exact ⟨vs, h1.isInfix.trans (List.suffix_cons u us).isInfix, h2, by rw [h3, h0, List.nil_append]⟩
    -- the result of a run that begins here
    have here : ∀ (a x : List Rune), InText u → u.runes = x → p ∈ resultsFrom (.reading a x) us →
        ∃ vs, vs <:+: u :: us ∧ (∀ u ∈ vs, InText u) ∧ p.2.1 = vs.flatMap Lexeme.runes := by
      intro a x hu hx h
      rcases ih _ p h with ⟨vs, h1, h2, h3⟩ | ⟨vs, h1, h2, h3⟩
      · exact ⟨vs, h1.trans (List.suffix_cons u us).isInfix, h2, h3⟩
      · refine ⟨u :: vs, ((List.prefix_cons_inj u).mpr h1).isInfix, ?_, ?_⟩
        · intro w hw
          rcases List.mem_cons.mp hw with rfl | hw
          · exact hu
          · exact h2 w hw
        · rw [h3]; simp [pending, hx]
    -- the result that was being read
    have done : p.2.1 = pending st → ∃ vs, vs <+: u :: us ∧ (∀ u ∈ vs, InText u) ∧
        p.2.1 = pending st ++ vs.flatMap Lexeme.runes :=
      fun h => ⟨[], List.nil_prefix, by simp, by simpa using h⟩
    have alone : ∀ o, u = .other o → p.2.1 = o → ∃ vs, vs <:+: u :: us ∧ (∀ u ∈ vs, InText u) ∧
        p.2.1 = vs.flatMap Lexeme.runes := by
      intro o hu h
      refine ⟨[u], ⟨[], us, by simp⟩, by simp [hu, InText], by simp [hu, Lexeme.runes, h]⟩
    cases u with
    | text t =>
      cases st with
      | idle => exact Or.inl (here [] t trivial rfl hp)
      | opened s => exact Or.inl (here s t trivial rfl hp)
      | reading s t' =>
        rcases List.mem_cons.mp hp with rfl | hp
        · exact Or.inr (done rfl)
        · exact Or.inl (here [] t trivial rfl hp)
    | start s' =>
      cases st with
      | idle => exact Or.inl (later _ rfl hp)
      | opened s =>
        rcases List.mem_cons.mp hp with rfl | hp
        · exact Or.inr (done rfl)
        · exact Or.inl (later _ rfl hp)
      | reading s t' =>
        rcases List.mem_cons.mp hp with rfl | hp
        · exact Or.inr (done rfl)
        · exact Or.inl (later _ rfl hp)
    | stop q =>
      cases st with
      | idle =>
        rcases List.mem_cons.mp hp with rfl | hp
        · exact Or.inr (done rfl)
        · exact Or.inl (later _ rfl hp)
      | opened s =>
        rcases List.mem_cons.mp hp with rfl | hp
        · exact Or.inr (done rfl)
        · exact Or.inl (later _ rfl hp)
      | reading s t' =>
        rcases List.mem_cons.mp hp with rfl | hp
        · exact Or.inr (done rfl)
        · exact Or.inl (later _ rfl hp)
    | other o =>
      cases st with
      | idle =>
        rcases List.mem_cons.mp hp with rfl | hp
        · exact Or.inl (alone o rfl rfl)
        · exact Or.inl (later _ rfl hp)
      | opened s =>
        rcases List.mem_cons.mp hp with rfl | hp
        · exact Or.inl (alone o rfl rfl)
        · exact Or.inl (later _ rfl hp)
      | reading s t' =>
        rcases ih _ p hp with ⟨vs, h1, h2, h3⟩ | ⟨vs, h1, h2, h3⟩
        · exact Or.inl ⟨vs, h1.trans (List.suffix_cons _ us).isInfix, h2, h3⟩
        · refine Or.inr ⟨.other o :: vs, (List.prefix_cons_inj _).mpr h1, ?_, ?_⟩
          · intro w hw
            rcases List.mem_cons.mp hw with rfl | hw
            · trivial
            · exact h2 w hw
          · rw [h3]; simp [pending, Lexeme.runes]

/-- The sequences of units are not empty. -/
theorem reads_nonempty {env : Env} {l : List Rune} {us : List Lexeme} (h : Reads env l us) :
    ∀ u ∈ us, u.runes ≠ [] := by
  have hr : ∀ s : CtlSeq, s.runes ≠ [] := by intro s; simp [CtlSeq.runes, introducer]
  induction h with
  | nil => simp
  | text _ hne _ _ ih => intro u hu; rcases List.mem_cons.mp hu with rfl | hu; exact hne; exact ih u hu
  | lastEsc _ => intro u hu; rw [List.mem_singleton.mp hu]; simp [Lexeme.runes]
  | start _ _ _ _ ih => intro u hu; rcases List.mem_cons.mp hu with rfl | hu; exact hr _; exact ih u hu
  | stop _ _ _ _ ih => intro u hu; rcases List.mem_cons.mp hu with rfl | hu; exact hr _; exact ih u hu
  | other _ _ _ _ _ ih => intro u hu; rcases List.mem_cons.mp hu with rfl | hu; exact hr _; exact ih u hu
  | long _ _ ih => intro u hu; rcases List.mem_cons.mp hu with rfl | hu; simp [Lexeme.runes]; exact ih u hu
  | unfinished ho _ _ =>
    intro u hu
    rw [List.mem_singleton.mp hu]
    cases ho <;> simp [Lexeme.runes, introducer]

/-- **C42** (partial: sequences as read from the left to the right; see C42_double_escape_fails and
C40_three_digits_fails for others). In any text that does not end within a sequence, in a parameter of three digits,
every start or stop sequence that is read is reported as such, once and in order, and every text reported is made of
other units of the input that follow each other. -/
theorem C42_units_partial (env : Env) (hd : AsciiDigits env) (mem : List Rune) (v : View) (h : IsSlice mem v)
    (us : List Lexeme) (hu : Reads env (v.elems mem) us) :
    ∃ toks, stripToken env mem v = .ok (toks, mem) ∧
      (toks.map (fun t => optElems mem t.start)).filter (fun s => decide (s ≠ [])) = startUnits us ∧
      (toks.map (fun t => optElems mem t.stop)).filter (fun s => decide (s ≠ [])) = stopUnits us ∧
      ∀ tok ∈ toks, ∃ vs, vs <:+: us ∧ (∀ u ∈ vs, InText u) ∧ textElems mem tok.text = vs.flatMap Lexeme.runes := by
  have ho : ¬ EndsLong env (v.elems mem) := (C102_readable env hd _).mp ⟨us, hu⟩
  obtain ⟨us', toks, h1, h2, _, h4, h5⟩ := C102_results env hd mem v h ho
  have := h2 us hu
  subst this
  have hne := reads_nonempty hu
  have hst : ∀ s ∈ startUnits us, s ≠ [] := by
    intro s hs
    obtain ⟨u, hu, he⟩ := List.mem_filterMap.mp hs
    have := hne u hu
    cases u <;> simp at he
    subst he; exact this
  have hsp : ∀ s ∈ stopUnits us, s ≠ [] := by
    intro s hs
    obtain ⟨u, hu, he⟩ := List.mem_filterMap.mp hs
    have := hne u hu
    cases u <;> simp at he
    subst he; exact this
  refine ⟨toks, h4, ?_, ?_, ?_⟩
  · have e : toks.map (fun t => optElems mem t.start) = (toks.map (tokParts mem)).map (fun p => p.1) := by
      simp [tokParts]
    rw [e, h5]
    unfold results
    by_cases he : us = []
    · subst he; rfl
    · rw [if_neg he, resultsFrom_starts us hst .idle (by simp [pendingStart])]; rfl
  · have e : toks.map (fun t => optElems mem t.stop) = (toks.map (tokParts mem)).map (fun p => p.2.2) := by
      simp [tokParts]
    rw [e, h5]
    unfold results
    by_cases he : us = []
    · subst he; rfl
    · rw [if_neg he, resultsFrom_stops us hsp .idle]
  · intro tok ht
    have hm : tokParts mem tok ∈ results us := by rw [← h5]; exact List.mem_map_of_mem ht
    unfold results at hm
    by_cases he : us = []
    · rw [if_pos he] at hm
      have e : tokParts mem tok = ([], [], []) := List.mem_singleton.mp hm
      refine ⟨[], List.nil_infix, by simp, ?_⟩
      exact congrArg (fun p => p.2.1) e
    · rw [if_neg he] at hm
      rcases resultsFrom_text us .idle _ hm with ⟨vs, g1, g2, g3⟩ | ⟨vs, g1, g2, g3⟩
      · exact ⟨vs, g1, g2, g3⟩
      · exact ⟨vs, g1.isInfix, g2, g3⟩

example : Reads Env.ascii (View.elems oddText ⟨0, 31⟩) oddUnits ∧
    startUnits oddUnits = [[0x1B, 0x5B, 0x34, 0x6D]] ∧
    stopUnits oddUnits = [[0x1B, 0x5B, 0x30, 0x6D], [0x1B, 0x5B, 0x6D]] := ⟨oddText_reads, by decide, by decide⟩

end Verif.Props
