import Verif.Proofs.LBReach
import Verif.Props.AnyPenalty
import Verif.Props.History

/-! # C58 and C70, for any words, widths and histories of calls

Whether `LeftAlignUniform` answers ErrCannotBeSet. Nothing is assumed of the words (escape sequences included, as long as
`StripToken` returns), of the measurer (numbers of any sign, NaN), of the split functions and of the widths. -/

set_option linter.unusedSectionVars false

namespace Verif.Props
open Verif.Go Verif.Model Verif.Model.LB Verif.Spec Verif.Spec.Ansi Verif.Spec.LB Verif.Proofs Verif.Proofs.LB

section
variable {F : Type} [Arith F]

/-- The call answers ErrCannotBeSet. -/
def Refused (rt : Runtime) (env : Env) (l : LineBreaker F) (tokens : List (List Rune)) (maxWidth : F) : Prop :=
  ∃ l', leftAlignUniform rt env l tokens maxWidth = .ok (none, l')

variable [Laws F] {rt rt' : Runtime} {env : Env} {dict : Dictionary} {opts : List (Opt F)} {l l₂ : LineBreaker F}
  {seqs seqs₂ : List (List Rune)} {tokens tokens₂ : List (List Rune)} {tks tks₂ : List (List Span)}

theorem refused_higher (x : F) (hu : AnyUsed env dict opts l seqs) (hu₂ : AnyUsed env dict (opts ++ [.tolerance x]) l₂ seqs₂)
    (hw : Walks rt') (hf : List.Forall₂ (Found rt env) tokens tks) (hf₂ : List.Forall₂ (Found rt' env) tokens₂ tks₂)
    (ht : tks.map (List.map Span.text) = tks₂.map (List.map Span.text)) (hp : Within (defaultOptions opts).hyphenPenalty 10000)
    (hx : ∀ r, Arith.le r (defaultOptions opts).tolerance = true → Arith.le r x = true) (ha : Arith.le (defaultOptions opts).tolerance (Arith.ofInt 50) = true)
    (hb : Arith.le x (Arith.ofInt 50) = true) (maxWidth : F)
    (h : Refused rt' env l₂ tokens₂ maxWidth) : Refused rt env l tokens maxWidth := by
  obtain ⟨h1, h2, h3, h4, h5, h6, h7, h8⟩ := fixed_options opts
  have hd : defaultOptions (opts ++ [.tolerance x]) = { defaultOptions opts with tolerance := x } := by
    unfold defaultOptions
    rw [List.foldl_append]
    rfl
  have t1 := (anyUsed_twin hu).1
  have t2 := (anyUsed_twin hu₂).1
  have n1 : new env dict (opts ++ [.tolerance x]) = eased (new env dict opts) x := by
    unfold new eased
    rw [hd]
    rfl
  rw [n1] at t2
  have ho : l.toOptions = (new env dict opts).toOptions := t1.options
  have hk : l.toOptions.badness = (defaultOptions opts).badness ∧ l.toOptions.demeritsLine = (defaultOptions opts).demeritsLine ∧
      l.toOptions.demeritsFitness = (defaultOptions opts).demeritsFitness ∧
      l.toOptions.demeritsFlagged = (defaultOptions opts).demeritsFlagged ∧
      l.toOptions.tolerance = (defaultOptions opts).tolerance ∧ l.toOptions.hyphenPenalty = (defaultOptions opts).hyphenPenalty ∧
      l.toOptions.punctuationPenalty = (defaultOptions opts).punctuationPenalty ∧
      l.toOptions.hardHyphenPenalty = (defaultOptions opts).hardHyphenPenalty := by
    rw [ho]
    exact ⟨rfl, rfl, rfl, rfl, rfl, rfl, rfl, rfl⟩
  obtain ⟨k1, k2, k3, k4, k5, k6, k7, k8⟩ := hk
  refine refused_mono (rt := rt) hw (l := l) (l' := l₂) (x := x) ⟨?_, ?_, ?_⟩ ⟨k2.trans h2, k1.trans h1, k3.trans h3, ?_, ?_⟩ hb
    (by rw [k5]; exact hx) (by rw [k6]; exact hp) (k7.trans h5) (k8.trans h4) hf hf₂ ht maxWidth h
  · rw [t2.1]
    show _ = { l.toOptions with tolerance := x }
    rw [ho]
    rfl
  · rw [t2.2]; exact t1.2.symm
  · rw [t2.3]; exact t1.3.symm
  · rw [k4]
    rcases h8 with h8 | h8
    · rw [h8]; exact within_int 100 10000 (by decide) (by decide) (by decide)
    · rw [h8]; exact hp
  · rw [k5]; exact ha

theorem anyUsed_new {opts' : List (Opt F)} (h : AnyUsed env dict opts l seqs) (e : new env dict opts = new env dict opts') :
    AnyUsed env dict opts' l seqs := by
  induction h with
  | new => rw [e]; exact .new
  | call rt tokens tks maxWidth r _ hf h ih => exact .call rt tokens tks maxWidth r ih hf h

theorem new_same_tolerance (env : Env) (dict : Dictionary) (opts : List (Opt F)) :
    new env dict opts = new env dict (opts ++ [.tolerance (defaultOptions opts).tolerance]) := by
  have hd : defaultOptions (opts ++ [.tolerance (defaultOptions opts).tolerance]) = defaultOptions opts := by
    unfold defaultOptions
    rw [List.foldl_append]
    rfl
  unfold new
  rw [hd]

/-- **C58**, for the existence of a result, on any words: whether a paragraph is refused depends neither on the walk of the
map, nor on earlier calls, nor on the escape sequences of the words. -/
theorem C58_refused_partial (hu : AnyUsed env dict opts l seqs) (hu₂ : AnyUsed env dict opts l₂ seqs₂)
    (hw : Walks rt) (hw' : Walks rt') (hf : List.Forall₂ (Found rt env) tokens tks)
    (hf₂ : List.Forall₂ (Found rt' env) tokens₂ tks₂) (ht : tks.map (List.map Span.text) = tks₂.map (List.map Span.text))
    (hp : Within (defaultOptions opts).hyphenPenalty 10000)
    (hb : Arith.le (defaultOptions opts).tolerance (Arith.ofInt 50) = true) (maxWidth : F) :
    Refused rt env l tokens maxWidth ↔ Refused rt' env l₂ tokens₂ maxWidth := by
  have e := new_same_tolerance env dict opts
  exact ⟨refused_higher _ hu₂ (anyUsed_new hu e) hw hf₂ hf ht.symm hp (fun _ h => h) hb hb maxWidth,
    refused_higher _ hu (anyUsed_new hu₂ e) hw' hf hf₂ ht hp (fun _ h => h) hb hb maxWidth⟩

/-- **C70.** A paragraph that is not refused is not refused with a higher tolerance either. -/
theorem C70_any (x : F) (hu : AnyUsed env dict opts l seqs) (hu₂ : AnyUsed env dict (opts ++ [.tolerance x]) l₂ seqs₂)
    (hw : Walks rt') (hf : List.Forall₂ (Found rt env) tokens tks) (hf₂ : List.Forall₂ (Found rt' env) tokens tks₂)
    (ht : tks.map (List.map Span.text) = tks₂.map (List.map Span.text)) (hp : Within (defaultOptions opts).hyphenPenalty 10000)
    (hx : Arith.le (defaultOptions opts).tolerance x = true) (hb : Arith.le x (Arith.ofInt 50) = true) (maxWidth : F)
    (h : ¬ Refused rt env l tokens maxWidth) : ¬ Refused rt' env l₂ tokens maxWidth :=
  fun h' => h (refused_higher x hu hu₂ hw hf hf₂ ht hp (fun r hr => Laws.le_trans _ _ _ hr hx) (Laws.le_trans _ _ _ hx hb) hb maxWidth h')

end

/-! ## Cases -/

/-- The laws of the rationals. -/
local instance anyReachLaws : Laws Rat := ratLaws (2 ^ 53) (le_refl _)

/-- Negative widths, and a tolerance of a fifth. -/
def lowOpts : List (Opt Rat) := [unit, belowQ, .tolerance (Arith.tenths 2)]

/-- Words with styles, and the same words without. -/
theorem styled_found (rt : Runtime) (h : ∀ t, rt.spare t = []) : List.Forall₂ (Found rt Env.ascii) styledWord
    [[⟨[], runesOf "aabb", []⟩], [⟨runesOf "\u001b[1m", runesOf "foobar", runesOf "\u001b[0m"⟩], [⟨[], runesOf "abc", []⟩],
      [⟨[], runesOf "dddd,", []⟩], [⟨[], runesOf "eeee", []⟩]] := by
  refine .cons ?_ (.cons ?_ (.cons ?_ (.cons ?_ (.cons ?_ .nil))))
  all_goals exact ⟨_, _, by rw [h, List.append_nil]; rfl, by decide +kernel⟩

theorem error_of {l : LineBreaker Rat} {rt : Runtime} {ts : List (List Rune)} {w : Rat}
    (h : (leftAlignUniform rt Env.ascii l ts w).map (fun p => p.1.isSome) = .ok false) : Refused rt Env.ascii l ts w := by
  cases e : leftAlignUniform rt Env.ascii l ts w with
  | error p => rw [e] at h; cases h
  | ok p =>
    obtain ⟨_ | r, l'⟩ := p
    · exact ⟨l', e⟩
    · rw [e] at h; cases h

theorem answered_of {l : LineBreaker Rat} {rt : Runtime} {ts : List (List Rune)} {w : Rat}
    (h : (leftAlignUniform rt Env.ascii l ts w).map (fun p => p.1.isSome) = .ok true) : ¬ Refused rt Env.ascii l ts w := by
  rintro ⟨l', e⟩
  rw [e] at h
  cases h

/-- **C58**, a case: words with negative widths are refused on any line breaker, with styles and the other walk of the map. -/
theorem C58_refused_case_partial {l : LineBreaker Rat} {seqs : List (List Rune)}
    (hu : AnyUsed Env.ascii (dictOf sampleLines) lowOpts l seqs) : Refused backward Env.ascii l styledWord (Arith.ofInt 8) := by
  refine (C58_refused_partial (rt := forward) (tokens := oddWords.map runesOf) (opts := lowOpts) .new hu forward_walks backward_walks
    (tks := oddWords.map fun w => [⟨[], runesOf w, []⟩]) ?_ (styled_found backward (fun _ => rfl)) rfl
    (within_int 300 10000 (by decide) (by decide) (by decide)) (by decide +kernel) _).mp (error_of (by decide +kernel))
  refine .cons ?_ (.cons ?_ (.cons ?_ (.cons ?_ (.cons ?_ .nil))))
  all_goals exact found_run (by decide +kernel)

/-- **C70**, a case: set with a tolerance of a half, so never refused with the tolerance of 2, whatever was set before. -/
theorem C70_any_case {l : LineBreaker Rat} {seqs : List (List Rune)}
    (hu : AnyUsed Env.ascii (dictOf sampleLines) ([unit, belowQ, .tolerance (Arith.tenths 5)] ++ [.tolerance (Arith.ofInt 2)]) l seqs) :
    ¬ Refused backward Env.ascii l styledWord (Arith.ofInt 8) :=
  C70_any (rt := forward) (opts := [unit, belowQ, .tolerance (Arith.tenths 5)]) _ .new hu backward_walks
    (styled_found forward (fun _ => rfl)) (styled_found backward (fun _ => rfl)) rfl
    (within_int 300 10000 (by decide) (by decide) (by decide)) (by decide +kernel) (by decide +kernel) _
    (answered_of (by decide +kernel))

end Verif.Props
