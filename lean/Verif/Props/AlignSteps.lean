import Verif.Proofs.AlignSteps
import Verif.Props.HyphSteps
import Verif.Props.Steps
import Verif.Props.Kept

/-! # C108: the work of a whole call -/

namespace Verif.Props
open Verif.Go Verif.Model Verif.Model.LB Verif.Spec Verif.Spec.Ansi Verif.Spec.LB Verif.Proofs Verif.Proofs.LB

section
variable {F : Type} [Arith F] {rt : Runtime} {env : Env} {dict : Dictionary} {opts : List (Opt F)} {l l' : LineBreaker F}
  {seqs : List (List Rune)} {tokens : List (List Rune)} {maxWidth : F}

theorem align_options {r : Option (List (List Rune))} (h : leftAlignUniform rt env l tokens maxWidth = .ok (r, l')) :
    l'.toOptions = l.toOptions := by
  unfold leftAlignUniform at h
  cases h1 : leftAlignedNodes rt env l tokens with
  | error e => rw [h1] at h; cases h
  | ok p =>
    simp only [h1, ok_bind] at h
    cases h2 : breakPoints rt l.toOptions p.1 (l.scale maxWidth) with
    | error e => simp only [h2] at h; cases h
    | ok c =>
      simp only [h2, ok_bind] at h
      cases c with
      | none => cases h; rfl
      | some chain =>
        simp only at h
        cases h3 : render l.toOptions p.2 p.1 chain with
        | error e => rw [h3] at h; cases h
        | ok ls => simp only [h3, ok_bind] at h; cases h; rfl

theorem used_options (hu : AnyUsed env dict opts l seqs) : l.toOptions = (new env dict opts).toOptions := by
  induction hu with
  | new => rfl
  | call rt tokens tks maxWidth r _ _ h ih => rw [← ih, align_options h]

theorem default_punctuator (hu : AnyUsed env dict opts l seqs) (hp : (defaultOptions opts).punctuator = none) :
    l.punctuator = some (punctuatorBreakWord env) := by
  have e : l.punctuator = (new env dict opts).punctuator := congrArg Options.punctuator (used_options hu)
  rw [e]
  simp only [new, hp]

theorem default_hyphenator (hu : AnyUsed env dict opts l seqs) (hh : (defaultOptions opts).hyphenator = none)
    (hb : l.wordBreak = true) :
    l.hyphenator = some (hyphenatorBreakWord env dict { HOptions.default with minLength := l.minHyphenate }) := by
  have e : l.hyphenator = (new env dict opts).hyphenator := congrArg Options.hyphenator (used_options hu)
  have e2 : l.minHyphenate = (new env dict opts).minHyphenate := congrArg Options.minHyphenate (used_options hu)
  have e3 : l.wordBreak = (new env dict opts).wordBreak := congrArg Options.wordBreak (used_options hu)
  have e3 : (defaultOptions opts).wordBreak = true := e3.symm.trans hb
  rw [e, e2]
  simp only [new, hh, e3, if_true]

theorem punctuatorC_call (hu : AnyUsed env dict opts l seqs) (hp : (defaultOptions opts).punctuator = none) (w : List Rune) :
    (punctuatorC env w).res = callSplit l.punctuator w := by
  rw [default_punctuator hu hp]
  exact breakAtFuncC_res _ _

theorem hyphenatorC_call (hu : AnyUsed env dict opts l seqs) (hh : (defaultOptions opts).hyphenator = none)
    (hb : l.wordBreak = true) (w : List Rune) : (hyphenatorC env dict l w).res = callSplit l.hyphenator w := by
  rw [default_hyphenator hu hh hb]
  exact breakWordC_res _ _ _ _

/-- **C108.** The function that counts its rounds has the same results as LeftAlignUniform: with the default punctuator and
hyphenator, whatever the other options and the calls before. -/
theorem C108_counted (hu : AnyUsed env dict opts l seqs) (hp : (defaultOptions opts).punctuator = none)
    (hh : (defaultOptions opts).hyphenator = none) (rt : Runtime) (tokens : List (List Rune)) (maxWidth : F) :
    (alignC (punctuatorC env) (hyphenatorC env dict l) rt env l tokens maxWidth).res =
      leftAlignUniform rt env l tokens maxWidth :=
  alignC_res (punctuatorC_call hu hp) (fun hb => hyphenatorC_call hu hh hb) rt env tokens maxWidth

theorem punctuator_divides (w : List Rune) (parts : List (List Rune)) (h : punctuatorBreakWord env w = .ok parts) :
    parts.flatten = w ∧ [] ∉ parts := by
  obtain ⟨p1, h1, h2⟩ := C04_punctuator_partition env w
  obtain ⟨p2, h1', h3, _⟩ := C05_punctuator_unique_split env (punctSplitFunc env) (punctSplitFunc_iff env) w
  rw [h1] at h1' h
  cases h1'
  cases h
  refine ⟨h2, fun hm => ?_⟩
  rcases h3.kind _ hm with ⟨r, e, _⟩ | ⟨e, _⟩
  · cases e
  · exact e rfl

theorem hyphenator_divides (k : Int) (w : List Rune) (hw : w ≠ []) (parts : List (List Rune))
    (h : hyphenatorBreakWord env dict { HOptions.default with minLength := k } w = .ok parts) :
    parts.flatten = w ∧ [] ∉ parts := by
  obtain ⟨p1, h1, _, h2⟩ := C09_hyphenator_partition env dict { HOptions.default with minLength := k } (show (0 : Int) ≤ 2 by decide) w
  obtain ⟨p2, h1', h3⟩ := C10_no_empty_part env dict { HOptions.default with minLength := k }
    (show (1 : Int) ≤ 2 by decide) (show (1 : Int) ≤ 2 by decide) w hw
  rw [h1] at h1' h
  cases h1'
  cases h
  exact ⟨h2, fun hm => h3 _ hm rfl⟩

/-- **C108.** A call on words of any runes, `N` the number of runes and three more for each word, with the default
punctuator, and the default hyphenator with a file of patterns of at most `L` runes on a line, on a line breaker that
keeps `h` renderers of earlier calls. If it returns `n` lines with `r` runes in all, or none, it has made at most
`N (N + 1) (L + 2) + N (L (L + 3) + 134) + 75 N² + 2 + n (14 N + 4 h + 2) + r` rounds of loops. -/
theorem C108_work (hu : AnyUsed env dict opts l seqs) (hp : (defaultOptions opts).punctuator = none)
    (hh : (defaultOptions opts).hyphenator = none) (ho : OneWalk rt) (hd : AsciiDigits env)
    {id : List Rune} {file : List (List Rune)} {L : Nat} (hL : ∀ x ∈ file, x.length ≤ L)
    (hdict : loadPatterns env id file = .ok dict) (hl : ∀ t ∈ tokens, (t.length : Int) < 2 ^ 63) (N : Nat)
    (hN : tokens.flatten.length + 3 * tokens.length = N) (r : Option (List (List Rune)))
    (h : leftAlignUniform rt env l tokens maxWidth = .ok (r, l')) :
    (alignC (punctuatorC env) (hyphenatorC env dict l) rt env l tokens maxWidth).steps ≤
      N * ((N + 1) * (L + 2)) + N * (L * (L + 3) + 134) + 75 * (N * N) + 2 +
        ((r.getD []).length * (14 * N + 4 * l.attrList.length + 2) + (r.getD []).flatten.length) := by
  have hpt : Tame N 1 (punctuatorC env) := by
    intro w hw _
    rw [Nat.one_mul]
    refine ⟨breakAtFuncC_steps _ _, fun parts hq => ?_⟩
    exact punctuator_divides w parts (by rw [← hq]; exact (breakAtFuncC_res _ _).symm)
  have hp0 : (punctuatorC env []).steps = 0 ∧ ∀ parts, (punctuatorC env []).res = .ok parts → parts = [] := by
    refine ⟨Nat.le_zero.mp (breakAtFuncC_steps [] _), fun parts hq => ?_⟩
    have e : (punctuatorC env []).res = .ok [] := rfl
    rw [e] at hq
    cases hq; rfl
  have hht : Tame N (65 + 2 * L + ((N + 1) * (L + 2) + L * (L + 1))) (hyphenatorC env dict l) := by
    intro w hw hn
    refine ⟨?_, fun parts hq => ?_⟩
    · refine (C106_quadratic env id file L hL dict hdict _ w).trans ?_
      have hpos := List.length_pos_iff.mpr hw
      have h1 : w.length * ((w.length + 1) * (L + 2)) ≤ w.length * ((N + 1) * (L + 2)) :=
        Nat.mul_le_mul_left _ (Nat.mul_le_mul_right _ (by omega))
      have h2 : 2 * L * 1 ≤ 2 * L * w.length := Nat.mul_le_mul_left _ hpos
      have e1 : w.length * (1 + (w.length + 1) * (L + 2) + L * (L + 1)) =
          w.length + w.length * ((w.length + 1) * (L + 2)) + w.length * (L * (L + 1)) := by ring
      have e2 : (65 + 2 * L + ((N + 1) * (L + 2) + L * (L + 1))) * w.length =
          65 * w.length + 2 * L * w.length + w.length * ((N + 1) * (L + 2)) + w.length * (L * (L + 1)) := by ring
      rw [e1, e2]
      omega
    · have e := breakWordC_res env dict { HOptions.default with minLength := l.minHyphenate } w
      exact hyphenator_divides _ w hw parts (by rw [← hq]; exact e.symm)
  have key := alignC_steps hpt hp0 hht (punctuatorC_call hu hp) (fun hb => hyphenatorC_call hu hh hb) ho hd tokens hl hN
    (fun w ps _ hq => by rw [default_punctuator hu hp] at hq; exact punctuator_divides w ps hq)
    (fun hb w hw ps hq => by rw [default_hyphenator hu hh hb] at hq; exact hyphenator_divides _ w hw ps hq)
    maxWidth r l' h
  refine key.trans (Nat.add_le_add_right (Nat.add_le_add_right (Nat.add_le_add_right (Nat.le_of_eq ?_) _) _) _)
  ring

end

/-! ## A case -/

theorem dictOf_ok {lines : List (List Rune)} (h : (loadPatterns Env.ascii [] lines).isOk = true) :
    loadPatterns Env.ascii [] lines = .ok (dictOf lines) := by
  unfold dictOf
  cases e : loadPatterns Env.ascii [] lines with
  | error p => rw [e] at h; cases h
  | ok d => rfl

/-- Two words, the first in bold and long enough to be hyphenated. -/
def workWords : List (List Rune) := ["\x1b[1maabbdcc\x1b[0m", "x-y,zz"].map runesOf

/-- The call takes 382 rounds. -/
theorem work_steps : (alignC (punctuatorC Env.ascii) (hyphenatorC Env.ascii (dictOf sampleLines) (demo [])) forward Env.ascii
    (demo []) workWords (Arith.ofInt 5 : Rat)).steps = 382 := by decide +kernel

/-- The theorem on this text: `N` is 27, `L` is 13, and there are four lines of 34 runes in all. -/
example : (alignC (punctuatorC Env.ascii) (hyphenatorC Env.ascii (dictOf sampleLines) (demo [])) forward Env.ascii
    (demo []) workWords (Arith.ofInt 5 : Rat)).steps ≤
      27 * ((27 + 1) * (13 + 2)) + 27 * (13 * (13 + 3) + 134) + 75 * (27 * 27) + 2 + (4 * (14 * 27 + 4 * 0 + 2) + 34) := by
  have h : linesOf forward (demo []) ["\x1b[1maabbdcc\x1b[0m", "x-y,zz"] (Arith.ofInt 5 : Rat) =
      .ok (some (["\x1b[1m\x1b[1maa-\x1b[0m", "\x1b[1mbbdcc\x1b[0m", "x-y,", "zz"].map runesOf)) := by decide +kernel
  obtain ⟨l', h⟩ := linesOf_ok h
  have e : (["\x1b[1m\x1b[1maa-\x1b[0m", "\x1b[1mbbdcc\x1b[0m", "x-y,", "zz"].map runesOf).flatten.length = 34 := by decide +kernel
  have := C108_work (opts := [unit]) .new rfl rfl oneWalk_forward digits_ascii (L := 13) (file := sampleLines) (id := [])
    (by decide +kernel) (dictOf_ok (by decide +kernel)) (by decide +kernel) 27 (by decide +kernel) _ h
  rw [Option.getD_some, e] at this
  exact this

end Verif.Props
