import Verif.Proofs.LBAnyPenalty
import Verif.Props.Choice
import Verif.Props.Fills

/-! # C77, for any words, widths and histories of calls

Nothing is assumed of the words (escape sequences included), of the measurer (numbers of any sign, NaN), of the split
functions (they may lose text, and panic) and of the widths. -/

set_option linter.unusedSectionVars false

namespace Verif.Props
open Verif.Go Verif.Model Verif.Model.LB Verif.Spec Verif.Spec.Ansi Verif.Spec.LB Verif.Proofs Verif.Proofs.LB

section
variable {F : Type} [Arith F]

/-- A call of `LeftAlignUniform`: its words, its width, and what the runtime chooses during it. -/
structure Demand (F : Type) where
  rt : Runtime
  tokens : List (List Rune)
  maxWidth : F

/-- What a list of calls gives on one line breaker, up to the first panic. -/
def answers (env : Env) : LineBreaker F → List (Demand F) → List (Res (Option (List (List Rune))))
  | _, [] => []
  | l, c :: cs => match leftAlignUniform c.rt env l c.tokens c.maxWidth with
    | .ok (r, l') => .ok r :: answers env l' cs
    | .error e => [.error e]

/-- The penalty of hyphens is a number between 0 and 10000 (excluded) and, when hyphens are rendered, differs from
the penalties of the other places. -/
structure OrdinaryPenalty (o : Options F) : Prop where
  within : Within o.hyphenPenalty 10000
  finite : Arith.eq o.hyphenPenalty (Arith.ofInt 10000) = false
  notForced : Arith.eq o.hyphenPenalty (Arith.ofInt (-10000)) = false
  own : o.renderHyphens = true → OwnPenalty o

variable [Laws F]

theorem OrdinaryPenalty.fair {o : Options F} (h : OrdinaryPenalty o) : Fair o.renderHyphens o.hyphenPenalty :=
  ⟨h.within, h.finite, h.notForced, fun e => ⟨(h.own e).gap, (h.own e).hard, (h.own e).mark, (h.own e).number⟩⟩

theorem answers_priced (env : Env) (x : F) (cs : List (Demand F)) (l : LineBreaker F)
    (hl : Fair l.renderHyphens l.hyphenPenalty) (hx : Fair l.renderHyphens x)
    (hp : l.punctuationPenalty = Arith.ofInt 400) (hh : l.hardHyphenPenalty = Arith.ofInt 200) (hu : Costs l.toOptions) :
    answers env (priced l x) cs = answers env l cs := by
  induction cs generalizing l with
  | nil => rfl
  | cons c cs ih =>
    unfold answers
    rw [align_priced c.rt env hl hx hp hh hu]
    cases h : leftAlignUniform c.rt env l c.tokens c.maxWidth with
    | error e => rfl
    | ok p =>
      obtain ⟨r, l'⟩ := p
      have hk : l'.toOptions = l.toOptions := align_options h
      show Except.ok r :: answers env (priced l' x) cs = Except.ok r :: answers env l' cs
      rw [ih l' (by rw [hk]; exact hl) (by rw [hk]; exact hx) (by rw [hk]; exact hp) (by rw [hk]; exact hh) (by rw [hk]; exact hu)]

/-- **C77.** Two line breakers made with the same options but for the penalty of hyphens give the same results to the
same calls, one after the other: the same lines, the same refusals and the same panics. -/
theorem C77_sessions (env : Env) (dict : Dictionary) (opts : List (Opt F)) (x : F) (calls : List (Demand F))
    (hp : OrdinaryPenalty (defaultOptions opts)) (hp' : OrdinaryPenalty (defaultOptions (opts ++ [.hyphenPenalty x])))
    (ht : Arith.le (defaultOptions opts).tolerance (Arith.ofInt 50) = true) :
    answers env (new env dict (opts ++ [.hyphenPenalty x])) calls = answers env (new env dict opts) calls := by
  obtain ⟨h1, h2, h3, h4, h5, h6, h7, h8⟩ := fixed_options opts
  have hd : defaultOptions (opts ++ [.hyphenPenalty x]) = { defaultOptions opts with hyphenPenalty := x, demeritsFlagged := x } := by
    unfold defaultOptions
    rw [List.foldl_append]
    rfl
  have hx : Fair (defaultOptions opts).renderHyphens x := by
    have := hp'.fair
    rw [hd] at this
    exact this
  have hn := new_penalty env dict opts x
  rw [hn]
  refine answers_priced env x calls (new env dict opts) hp.fair hx h5 h4 ⟨h2, h1, h3, ?_, ht⟩
  show Within (defaultOptions opts).demeritsFlagged 10000
  rcases h8 with h8 | h8
  · rw [h8]; exact within_int 100 10000 (by decide) (by decide) (by decide)
  · rw [h8]; exact hp.within

end

/-! ## Cases -/

/-- The laws of the rationals. -/
local instance anyPenaltyLaws : Laws Rat := ratLaws (2 ^ 53) (le_refl _)

/-- A measurer that gives a negative width to texts of 3 runes. -/
def belowQ : Opt Rat := .measurer (fun rs => if rs.length = 3 then Arith.ofInt (-7) else Arith.ofInt rs.length)

/-- The words of the cases below. -/
def styledWord : List (List Rune) := (["aabb", "\u001b[1mfoobar\u001b[0m", "abc", "dddd,", "eeee"] : List String).map runesOf

/-- Calls on one line breaker: styled words twice, no words, and another width. -/
def demands : List (Demand Rat) :=
  [⟨forward, styledWord, Arith.ofInt 4⟩, ⟨forward, styledWord, Arith.ofInt 4⟩, ⟨forward, [], Arith.ofInt 4⟩,
    ⟨backward, styledWord, Arith.ofInt 8⟩]

/-- The lines of these calls. -/
def styledLines : List (List Rune) :=
  (["aabb", "\u001b[1mfo-\u001b[0m", "\u001b[1mobar\u001b[0m", "abc dddd, eeee"] : List String).map runesOf

/-- **C77**, a case with negative widths, escape sequences and several calls. -/
theorem C77_sessions_case :
    answers Env.ascii (new Env.ascii (dictOf sampleLines) ([unit, belowQ] ++ [.hyphenPenalty (Arith.ofInt 2000)])) demands =
      [.ok (some styledLines), .ok (some styledLines), .ok none, .ok (some styledLines)] := by
  rw [C77_sessions (F := Rat) Env.ascii (dictOf sampleLines) [unit, belowQ] (Arith.ofInt 2000) demands
    ⟨within_int 300 10000 (by decide) (by decide) (by decide), by decide +kernel, by decide +kernel,
      fun _ => ⟨by decide +kernel, by decide +kernel, by decide +kernel, by decide +kernel⟩⟩
    ⟨within_int 2000 10000 (by decide) (by decide) (by decide), by decide +kernel, by decide +kernel,
      fun _ => ⟨by decide +kernel, by decide +kernel, by decide +kernel, by decide +kernel⟩⟩ (by decide +kernel)]
  decide +kernel

/-- **C77** does not extend to negative penalties: a bonus of 50 for hyphens removes hyphens, and a paragraph that could
be set is refused. -/
theorem C77_bonus_changes :
    linesOf forward (demo []) ["foobar,", "foo-bar", "foobar", "aabbdcc", "x"] 8 =
      .ok (some (["foobar,", "foo-", "bar fo-", "obar aa-", "bbdcc x"].map runesOf)) ∧
    linesOf forward (demo [.hyphenPenalty (Arith.ofInt (-50))]) ["foobar,", "foo-bar", "foobar", "aabbdcc", "x"] 8 =
      .ok (some (["foobar,", "foo-bar", "foobar", "aa-", "bbdcc x"].map runesOf)) ∧
    linesOf forward (demo [belowQ]) oddWords 4 = .ok (some (["aabb", "fo-", "obar", "abc dddd, eeee"].map runesOf)) ∧
    linesOf forward (demo [belowQ, .hyphenPenalty (Arith.ofInt (-50))]) oddWords 4 = .ok none := by
  refine ⟨by decide +kernel, by decide +kernel, by decide +kernel, by decide +kernel⟩

end Verif.Props
