import Verif.Props.AlignSteps
import Verif.Props.AnsiSteps

/-! # C108: what a whole call cannot do without -/

namespace Verif.Props
open Verif.Go Verif.Model Verif.Model.LB Verif.Spec Verif.Spec.Ansi Verif.Spec.LB Verif.Proofs Verif.Proofs.LB

section
variable {F : Type} [Arith F] {rt : Runtime} {env : Env} {dict : Dictionary} {opts : List (Opt F)} {l l' : LineBreaker F}
  {seqs : List (List Rune)} {tokens : List (List Rune)} {maxWidth : F}

theorem andThen_ge {α β : Type} {x : Counted α} {f : α → Counted β} {y : β} (h : (x.andThen f).res = .ok y) :
    ∃ z, x.res = .ok z ∧ (f z).res = .ok y ∧ (x.andThen f).steps = x.steps + (f z).steps := by
  unfold Counted.andThen at h ⊢
  cases e : x.res with
  | error p => rw [e] at h; cases h
  | ok z => rw [e] at h; exact ⟨z, rfl, h, rfl⟩

theorem breakAtLoopC_all (f : Rune → Bool) (word : List Rune) : ∀ (rest : List Rune) (i p : Nat) (r : List (List Rune))
    (y : List (List Rune) × Nat), (breakAtLoopC f word rest i p r).res = .ok y →
    (breakAtLoopC f word rest i p r).steps = rest.length
  | [], _, _, _, _, _ => rfl
  | x :: rest, i, p, r, y, h => by
    have ih := breakAtLoopC_all f word rest
    unfold breakAtLoopC at h ⊢
    simp only [Counted.round, List.length_cons] at h ⊢
    split at h
    · rename_i hb
      rw [if_pos hb]
      split at h
      · rename_i hc
        rw [if_pos hc]
        obtain ⟨z, _, h2, h3⟩ := andThen_ge h
        rw [h3, ih _ _ _ _ h2]
        simp only [Counted.of]
        omega
      · rename_i hc
        rw [if_neg hc, ih _ _ _ _ h]
    · rename_i hb
      rw [if_neg hb, ih _ _ _ _ h]

theorem breakAtFuncC_all (word : List Rune) (f : Rune → Bool) (y : List (List Rune)) (h : (breakAtFuncC word f).res = .ok y) :
    (breakAtFuncC word f).steps = word.length := by
  unfold breakAtFuncC at h ⊢
  obtain ⟨z, h1, _, h3⟩ := andThen_ge h
  rw [h3, breakAtLoopC_all _ _ _ _ _ _ _ h1]
  rfl

theorem boxNodesC_lower {hc : SplitFuncC} (hd : AsciiDigits env) (t : List Rune) (he : EscapeFree t) (a : AState)
    (y : List (Node F) × AState) (h : (boxNodesC (punctuatorC env) hc rt env l t a).res = .ok y) :
    t.length + 1 ≤ (boxNodesC (punctuatorC env) hc rt env l t a).steps := by
  obtain ⟨toks, mem, h1, h2⟩ := strips_bare rt hd t he.1 he.2
  obtain ⟨tok, rfl, h3⟩ : ∃ tok, toks = [tok] ∧ spanOf mem tok = ⟨[], t, []⟩ := by
    rcases toks with _ | ⟨tok, _ | ⟨_, _⟩⟩
    · cases h2
    · exact ⟨tok, rfl, by simpa [bare] using h2⟩
    · simp [bare] at h2
  have e2 : textRunes mem tok.text = t := congrArg Span.text h3
  unfold boxNodesC at h ⊢
  obtain ⟨z, g1, g2, g3⟩ := andThen_ge h
  rw [g3]
  rw [Verif.Proofs.Ansi.stripTokenC_res, h1] at g1
  cases g1
  unfold strippedLoopC at g2 ⊢
  simp only [Counted.round, e2] at g2 ⊢
  obtain ⟨z, k1, k2, k3⟩ := andThen_ge g2
  rw [k3]
  have := breakAtFuncC_all t (punctSplitFunc env) z k1
  have e : (punctuatorC env t).steps = t.length := this
  omega

theorem tokensLoopC_lower {hc : SplitFuncC} (hd : AsciiDigits env) : ∀ (ts : List (List Rune)) (_ : ∀ t ∈ ts, EscapeFree t)
    (a : AState) (y : List (Node F) × AState), (tokensLoopC (punctuatorC env) hc rt env l ts a).res = .ok y →
    ts.flatten.length + 2 * ts.length ≤ (tokensLoopC (punctuatorC env) hc rt env l ts a).steps
  | [], _, _, _, _ => Nat.zero_le _
  | [t], he, a, y, h => by
    unfold tokensLoopC at h ⊢
    simp only [Counted.round] at h ⊢
    obtain ⟨z, k1, k2, k3⟩ := andThen_ge h
    have := boxNodesC_lower hd t (he t (by simp)) a z k1
    rw [k3]
    simp only [List.flatten_cons, List.flatten_nil, List.append_nil, List.length_cons, List.length_nil]
    omega
  | t :: u :: ts, he, a, y, h => by
    rw [tokensLoopC] at h ⊢
    · simp only [Counted.round] at h ⊢
      obtain ⟨z, k1, k2, k3⟩ := andThen_ge h
      obtain ⟨w, m1, _, m3⟩ := andThen_ge k2
      have i1 := boxNodesC_lower hd t (he t (by simp)) a z k1
      have i2 := tokensLoopC_lower hd (u :: ts) (fun x hx => he x (by simp [hx])) z.2 w m1
      rw [k3, m3]
      simp only [List.flatten_cons, List.length_cons, List.length_append] at i2 ⊢
      omega
    · simp
    · simp

theorem linesLoopC_lower (ns : List (Node F)) : ∀ (bs : List (Point F)) (start : Nat) (r : List (F × List (Node F))),
    (linesLoopC ns bs start).res = .ok r → r.length ≤ (linesLoopC ns bs start).steps
  | [], _, r, h => by cases h; exact Nat.zero_le _
  | b :: bs, start, r, h => by
    unfold linesLoopC at h ⊢
    simp only [Counted.round] at h ⊢
    obtain ⟨z, _, k2, k3⟩ := andThen_ge h
    obtain ⟨y, _, m2, m3⟩ := andThen_ge k2
    obtain ⟨x, p1, p2, p3⟩ := andThen_ge m2
    have := linesLoopC_lower ns bs _ x p1
    cases p2
    rw [k3, m3, p3, List.length_cons]
    omega

theorem renderLoopC_lower (l : Options F) (attrs : AState) : ∀ (lines : List (F × List (Node F))) (it : AIter)
    (r : List (List Rune)), (renderLoopC l attrs lines it).res = .ok r →
    r.length ≤ (renderLoopC l attrs lines it).steps ∧ r.length = lines.length
  | [], _, r, h => by cases h; exact ⟨Nat.zero_le _, rfl⟩
  | b :: bs, it, r, h => by
    unfold renderLoopC at h ⊢
    simp only at h ⊢
    obtain ⟨z, _, k2, k3⟩ := andThen_ge h
    simp only at k2
    obtain ⟨y, m1, m2, m3⟩ := andThen_ge k2
    obtain ⟨i1, i2⟩ := renderLoopC_lower l attrs bs _ y m1
    cases m2
    rw [k3, List.length_cons, List.length_cons]
    simp only [m3]
    omega

theorem renderC_lower (l : Options F) (attrs : AState) (ns : List (Node F)) (bs : List (Point F)) (r : List (List Rune))
    (h : (renderC l attrs ns bs).res = .ok r) : 2 * r.length ≤ (renderC l attrs ns bs).steps := by
  unfold renderC at h ⊢
  obtain ⟨z, k1, k2, k3⟩ := andThen_ge h
  have := linesLoopC_lower ns _ _ z k1
  obtain ⟨i1, i2⟩ := renderLoopC_lower l attrs z _ r k2
  rw [k3]
  omega

/-- **C108.** The rounds of a call that returns are those of making nodes of the words, of the search for line breaks and
of rendering. -/
theorem C108_parts (hu : AnyUsed env dict opts l seqs) (hp : (defaultOptions opts).punctuator = none)
    (hh : (defaultOptions opts).hyphenator = none) (r : Option (List (List Rune)))
    (h : leftAlignUniform rt env l tokens maxWidth = .ok (r, l')) :
    (alignC (punctuatorC env) (hyphenatorC env dict l) rt env l tokens maxWidth).steps =
      (tokensLoopC (punctuatorC env) (hyphenatorC env dict l) rt env l tokens l.attrList).steps +
        searchSteps rt env l tokens maxWidth + renderSteps rt env l tokens maxWidth := by
  have key := C108_counted hu hp hh rt tokens maxWidth
  rw [h] at key
  unfold searchSteps renderSteps leftAlignedNodes
  rw [← tokensLoopC_res (punctuatorC_call hu hp) (fun hb => hyphenatorC_call hu hh hb)]
  unfold alignC at key ⊢
  obtain ⟨p, k1, k2, k3⟩ := andThen_ge key
  obtain ⟨c, m1, m2, m3⟩ := andThen_ge k2
  rw [k3, m3, k1]
  simp only
  have m0 := m1
  rw [breakPointsC_res] at m0
  rw [m0]
  cases c with
  | none => simp only [Counted.of]; omega
  | some chain =>
    simp only at m2 ⊢
    obtain ⟨y, n1, _, n3⟩ := andThen_ge m2
    rw [n3]
    simp only [Counted.of]
    omega

theorem renderSteps_lower (hu : AnyUsed env dict opts l seqs) (hp : (defaultOptions opts).punctuator = none)
    (hh : (defaultOptions opts).hyphenator = none) {r : Option (List (List Rune))}
    (h : leftAlignUniform rt env l tokens maxWidth = .ok (r, l')) :
    2 * (r.getD []).length ≤ renderSteps rt env l tokens maxWidth := by
  have key := C108_counted hu hp hh rt tokens maxWidth
  rw [h] at key
  unfold alignC at key
  obtain ⟨p, k1, k2, _⟩ := andThen_ge key
  obtain ⟨c, m1, m2, _⟩ := andThen_ge k2
  unfold renderSteps leftAlignedNodes
  rw [← tokensLoopC_res (punctuatorC_call hu hp) (fun hb => hyphenatorC_call hu hh hb), k1]
  rw [breakPointsC_res] at m1
  simp only [m1]
  cases c with
  | none => cases m2; exact Nat.zero_le _
  | some chain =>
    simp only at m2 ⊢
    obtain ⟨y, n1, n2, _⟩ := andThen_ge m2
    cases n2
    exact renderC_lower _ _ _ _ _ n1

/-- **C108.** A call on words without escape sequences that returns `n` lines has made at least a round for each rune, two
for each word and two for each line, besides those of the search. -/
theorem C108_no_less (hu : AnyUsed env dict opts l seqs) (hp : (defaultOptions opts).punctuator = none)
    (hh : (defaultOptions opts).hyphenator = none) (hd : AsciiDigits env) (he : ∀ t ∈ tokens, EscapeFree t)
    (r : Option (List (List Rune))) (h : leftAlignUniform rt env l tokens maxWidth = .ok (r, l')) :
    tokens.flatten.length + 2 * tokens.length + searchSteps rt env l tokens maxWidth + 2 * (r.getD []).length ≤
      (alignC (punctuatorC env) (hyphenatorC env dict l) rt env l tokens maxWidth).steps := by
  rw [C108_parts hu hp hh r h]
  have key := C108_counted hu hp hh rt tokens maxWidth
  rw [h] at key
  unfold alignC at key
  obtain ⟨p, k1, _, _⟩ := andThen_ge key
  have i1 := tokensLoopC_lower hd tokens he _ p k1
  have i2 := renderSteps_lower hu hp hh h
  omega

theorem boxNodesC_lower_any {pc hc : SplitFuncC} (hd : AsciiDigits env) (t : List Rune) (hl : (t.length : Int) < 2 ^ 63)
    (a : AState) (y : List (Node F) × AState) (h : (boxNodesC pc hc rt env l t a).res = .ok y) :
    5 * t.length ≤ 6 * (boxNodesC pc hc rt env l t a).steps := by
  unfold boxNodesC at h ⊢
  obtain ⟨z, g1, g2, g3⟩ := andThen_ge h
  rw [Verif.Proofs.Ansi.stripTokenC_res] at g1
  have := Verif.Proofs.Ansi.stripTokenC_ge env hd (t ++ rt.spare t) ⟨0, t.length⟩ (by simp [View.Valid]) hl z g1
  rw [g3]
  simp only at this
  omega

theorem tokensLoopC_lower_any {pc hc : SplitFuncC} (hd : AsciiDigits env) : ∀ (ts : List (List Rune))
    (_ : ∀ t ∈ ts, (t.length : Int) < 2 ^ 63) (a : AState) (y : List (Node F) × AState),
    (tokensLoopC pc hc rt env l ts a).res = .ok y →
    5 * ts.flatten.length + 6 * ts.length ≤ 6 * (tokensLoopC pc hc rt env l ts a).steps
  | [], _, _, _, _ => Nat.zero_le _
  | [t], he, a, y, h => by
    unfold tokensLoopC at h ⊢
    simp only [Counted.round] at h ⊢
    obtain ⟨z, k1, k2, k3⟩ := andThen_ge h
    have := boxNodesC_lower_any hd t (he t (by simp)) a z k1
    rw [k3]
    simp only [List.flatten_cons, List.flatten_nil, List.append_nil, List.length_cons, List.length_nil]
    omega
  | t :: u :: ts, he, a, y, h => by
    rw [tokensLoopC] at h ⊢
    · simp only [Counted.round] at h ⊢
      obtain ⟨z, k1, k2, k3⟩ := andThen_ge h
      obtain ⟨w, m1, _, m3⟩ := andThen_ge k2
      have i1 := boxNodesC_lower_any hd t (he t (by simp)) a z k1
      have i2 := tokensLoopC_lower_any hd (u :: ts) (fun x hx => he x (by simp [hx])) z.2 w m1
      rw [k3, m3]
      simp only [List.flatten_cons, List.length_cons, List.length_append] at i2 ⊢
      omega
    · simp
    · simp

/-- **C108.** The same for words of any runes, with five rounds for six runes and one for each word. -/
theorem C108_no_less_any (hu : AnyUsed env dict opts l seqs) (hp : (defaultOptions opts).punctuator = none)
    (hh : (defaultOptions opts).hyphenator = none) (hd : AsciiDigits env) (hl : ∀ t ∈ tokens, (t.length : Int) < 2 ^ 63)
    (r : Option (List (List Rune))) (h : leftAlignUniform rt env l tokens maxWidth = .ok (r, l')) :
    5 * tokens.flatten.length + 6 * tokens.length + 6 * searchSteps rt env l tokens maxWidth + 12 * (r.getD []).length ≤
      6 * (alignC (punctuatorC env) (hyphenatorC env dict l) rt env l tokens maxWidth).steps := by
  rw [C108_parts hu hp hh r h]
  have key := C108_counted hu hp hh rt tokens maxWidth
  rw [h] at key
  unfold alignC at key
  obtain ⟨p, k1, _, _⟩ := andThen_ge key
  have i1 := tokensLoopC_lower_any hd tokens hl _ p k1
  have i2 := renderSteps_lower hu hp hh h
  omega

end

/-! ## Cases -/

/-- The last theorem on the words with escape sequences: 21 runes, two words, four lines. -/
example : 5 * 21 + 6 * 2 + 6 * 101 + 12 * 4 ≤ 6 * 382 := by
  have h : linesOf forward (demo []) ["\x1b[1maabbdcc\x1b[0m", "x-y,zz"] (Arith.ofInt 5 : Rat) =
      .ok (some (["\x1b[1m\x1b[1maa-\x1b[0m", "\x1b[1mbbdcc\x1b[0m", "x-y,", "zz"].map runesOf)) := by decide +kernel
  obtain ⟨l', h⟩ := linesOf_ok h
  have hu : AnyUsed Env.ascii (dictOf sampleLines) [unit] (demo [] : LineBreaker Rat) [] := .new
  have e2 : searchSteps forward Env.ascii (demo []) workWords (Arith.ofInt 5 : Rat) = 101 := by decide +kernel
  have e3 : workWords.flatten.length = 21 := by decide +kernel
  have := C108_no_less_any hu rfl rfl digits_ascii (by decide +kernel) _ h
  rw [show List.map runesOf _ = workWords from rfl, e2, e3, work_steps] at this
  exact this

/-- The parts of the call of 382 rounds on two words. -/
example : ((tokensLoopC (punctuatorC Env.ascii) (hyphenatorC Env.ascii (dictOf sampleLines) (demo [])) forward Env.ascii
      (demo [] : LineBreaker Rat) workWords []).steps, searchSteps forward Env.ascii (demo []) workWords (Arith.ofInt 5 : Rat),
    renderSteps forward Env.ascii (demo []) workWords (Arith.ofInt 5 : Rat)) = (212, 101, 69) := by decide +kernel

/-- Ten words of one letter on a line of 20 columns: the theorem gives 261 rounds, there are 371. -/
example : 10 + 20 + 229 + 2 * 1 ≤ (alignC (punctuatorC Env.ascii) (hyphenatorC Env.ascii (dictOf sampleLines) (demo []))
    forward Env.ascii (demo []) (List.replicate 10 [0x7A]) (Arith.ofInt 20 : Rat)).steps := by
  have h : linesOf forward (demo []) ["z", "z", "z", "z", "z", "z", "z", "z", "z", "z"] (Arith.ofInt 20 : Rat) =
      .ok (some (["z z z z z z z z z z"].map runesOf)) := by decide +kernel
  obtain ⟨l', h⟩ := linesOf_ok h
  have e : (["z", "z", "z", "z", "z", "z", "z", "z", "z", "z"].map runesOf) = List.replicate 10 [0x7A] := by decide +kernel
  have e2 : searchSteps forward Env.ascii (demo []) (List.replicate 10 [0x7A]) (Arith.ofInt 20 : Rat) = 229 := by
    decide +kernel
  rw [e] at h
  have he : ∀ t ∈ List.replicate 10 [(0x7A : Int)], EscapeFree t := by
    intro t ht
    rw [(List.mem_replicate.mp ht).2]
    exact ⟨by decide, by decide⟩
  have hu : AnyUsed Env.ascii (dictOf sampleLines) [unit] (demo [] : LineBreaker Rat) [] := .new
  have := C108_no_less hu rfl rfl digits_ascii he _ h
  rw [e2] at this
  exact this

end Verif.Props
