import Verif.Proofs.AnsiChunk
import Verif.Proofs.AnsiCut

/-! # Properties C36–C43: escape sequences

The argument of a call is a window `v` of an array `mem`, which ends where the capacity of the argument
ends. The length of a Go slice fits an int. -/

namespace Verif.Props
open Verif.Go Verif.Model Verif.Model.Ansi Verif.Spec.Ansi Verif.Proofs.Ansi

/-- A slice as it can exist in a Go program. -/
def IsSlice (mem : List Rune) (v : View) : Prop := v.Valid mem ∧ (v.len : Int) < 2 ^ 63

instance (mem : List Rune) (v : View) : Decidable (IsSlice mem v) :=
  inferInstanceAs (Decidable (v.off + v.len ≤ mem.length ∧ (v.len : Int) < 2 ^ 63))

/-- The assumption on unicode.IsDigit can be met. -/
theorem ascii_digits : AsciiDigits Env.ascii := by
  intro r h1 h2
  simp [Env.ascii]

/-- The text `ESC [ 1 m a b ESC [ 0 m c`, followed by unused capacity. -/
def sampleMem : List Rune := [0x1B, 0x5B, 0x31, 0x6D, 0x61, 0x62, 0x1B, 0x5B, 0x30, 0x6D, 0x63, 7, 8]

example : IsSlice sampleMem ⟨0, 11⟩ := by decide

/-- The sequence `ESC [ 1 m`. -/
def boldSeq : CtlSeq := ⟨[0x31], [], 0x6D⟩
/-- The sequence `ESC [ 0 m`. -/
def resetSeq : CtlSeq := ⟨[0x30], [], 0x6D⟩

/-! ## C36 -/

/-- **C36.** StripANSIFromRunes terminates; what remains is shorter than the input, unless it is empty. -/
theorem C36_progress (env : Env) (hd : AsciiDigits env) (mem : List Rune) (v : View) (h : IsSlice mem v) :
    stripANSIFromRunes env mem v = .error .slice ∨
    ∃ tok mem', stripANSIFromRunes env mem v = .ok (tok, mem') ∧
      (tok.remainder.len < v.len ∨ (v.len = 0 ∧ tok.remainder.len = 0)) := by
  rcases strip_spec env hd mem v h.1 h.2 with ⟨h1, _⟩ | ⟨a, x, b, c, d, h1, h2, h3, h4⟩
  · exact Or.inl h1
  · refine Or.inr ⟨_, _, h4, ?_⟩
    simp only [result]
    by_cases hz : v.len = 0
    · right; omega
    · left
      have hl := View.elems_length h.1
      have := strip_progress h1 (by intro e; rw [e] at hl; simp at hl; omega)
      omega

/-- **C36.** StripToken terminates, with at least one result, at most as many as there are runes, and one
for the empty token. -/
theorem C36_terminates (env : Env) (hd : AsciiDigits env) (mem : List Rune) (v : View) (h : IsSlice mem v) :
    stripToken env mem v = .error .slice ∨
    ∃ toks mem', stripToken env mem v = .ok (toks, mem') ∧ 1 ≤ toks.length ∧ toks.length ≤ max 1 v.len := by
  rcases stripToken_spec env hd mem v h.1 h.2 with ⟨h1, _⟩ | ⟨toks, h1, h2⟩
  · exact Or.inl h1
  · have := run_length h1
    exact Or.inr ⟨toks, mem, h2, this.1, by omega⟩

example : (stripToken Env.ascii sampleMem ⟨0, 11⟩).map (fun r => r.1.length) = .ok 2 := by decide +kernel

/-! ## C37 -/

/-- **C37** (partial: it fails for texts that end within a control sequence, in a parameter of three digits). The
parts of the results are the input if and only if the text does not end in this way. -/
theorem C37_lossless_partial (env : Env) (hd : AsciiDigits env) (mem : List Rune) (v : View) (h : IsSlice mem v) :
    (∃ toks mem', stripToken env mem v = .ok (toks, mem') ∧ toks.flatMap (tokRunes mem') = v.elems mem) ↔
      ¬ EndsLong env (v.elems mem) := by
  constructor
  · rintro ⟨toks, mem', h1, h2⟩ hc
    have ho := (overruns_iff hd).mpr hc
    rcases stripToken_spec env hd mem v h.1 h.2 with ⟨g1, _⟩ | ⟨toks', g1, g2⟩
    · rw [g1] at h1; cases h1
    · rw [g2] at h1; cases h1
      have := (run_over hd g1 h.1 ho).2
      rw [h2, View.elems_length h.1] at this; omega
  · intro hc
    rcases stripToken_spec env hd mem v h.1 h.2 with ⟨_, _, h1⟩ | ⟨toks, h1, h2⟩
    · exact absurd (cut_of_overruns h1) hc
    · exact ⟨toks, mem, h2, run_whole h1 h.1 (fun h => hc (cut_of_overruns h))⟩

/-- **C37** (partial: the text must not end as said before). For one call: the parts and the remainder are the input. -/
theorem C37_one_call_partial (env : Env) (hd : AsciiDigits env) (mem : List Rune) (v : View) (h : IsSlice mem v)
    (hc : ¬ EndsLong env (v.elems mem)) :
    ∃ tok mem', stripANSIFromRunes env mem v = .ok (tok, mem') ∧
      tokRunes mem' tok ++ tok.remainder.elems mem' = v.elems mem := by
  rcases strip_spec env hd mem v h.1 h.2 with ⟨_, _, h1⟩ | ⟨a, x, b, c, d, h1, h2, h3, h4⟩
  · exact absurd (cut_of_overruns h1) hc
  · refine ⟨_, _, h4, ?_⟩
    have hb := strip_bounds h1
    have hl := View.elems_length h.1
    have e := strip_whole h1 (fun h => hc (cut_of_overruns h))
    subst e
    rw [result_runes mem v h1 h3 (by omega)]
    have : (result v a x b c c).remainder = ⟨v.off + (a + c), v.len - (a + c)⟩ := rfl
    rw [this, elems_drop, List.take_append_drop]

/-- The scan of an unfinished parameter of three digits. -/
theorem decodeSeq_three (env : Env) (d1 d2 d3 : Rune) (h1 : env.isDigit d1 = true) (h2 : env.isDigit d2 = true)
    (h3 : env.isDigit d3 = true) (hd : AsciiDigits env) :
    decodeSeq env [0x1B, 0x5B, d1, d2, d3] = some (6, .other) := by
  have hb := seqScan_overrun env hd [d1, d2, d3] [] [] 0x5B true true 2 (Or.inl rfl) (by simp) (by simp)
    (by simp [seqScan, h1, h2, h3])
  simp only [decodeSeq]
  rw [if_pos ⟨by decide, by decide⟩]
  congr 1
  refine Prod.ext ?_ hb.2
  simp [seqScan, h1, h2, h3]

/-- The parts for a text without ESC, and an unfinished parameter of three digits. -/
theorem strip_three {env : Env} (hd : AsciiDigits env) {pre : List Rune} (hp : (0x1B : Rune) ∉ pre)
    {d1 d2 d3 : Rune} (h1 : env.isDigit d1 = true) (h2 : env.isDigit d2 = true) (h3 : env.isDigit d3 = true)
    {a b c d : Nat} {x : Bool} (h : Strip env (pre ++ [0x1B, 0x5B, d1, d2, d3]) a x b c d) :
    a = 0 ∧ x = true ∧ b = pre.length + 6 ∧ c = pre.length + 6 ∧ d = pre.length + 5 := by
  have hq := decodeSeq_three env d1 d2 d3 h1 h2 h3 hd
  match pre, hp, h with
  | [], _, h =>
    rw [List.nil_append] at h
    cases h with
    | styled h4 _ _ => rw [hq] at h4; cases h4
    | plain h =>
      cases h with
      | other h4 h5 => rw [hq] at h4; cases h4; simp at h5
      | overrun h4 => simp
      | stop h4 _ => rw [hq] at h4; cases h4
      | start h4 _ _ => cases h4
      | text h4 _ => rw [hq] at h4; cases h4
  | r :: pre, hp, h =>
    have h0 : decodeSeq env (r :: pre ++ [0x1B, 0x5B, d1, d2, d3]) = none :=
      decodeSeq_not_esc env (by
        intro y hy
        cases hy
        intro e
        apply hp; rw [e]; simp)
    cases h with
    | styled h4 _ _ => rw [h0] at h4; cases h4
    | plain h =>
      cases h with
      | other h4 _ => rw [h0] at h4; cases h4
      | overrun h4 => rw [h0] at h4; cases h4
      | stop h4 _ => rw [h0] at h4; cases h4
      | start h4 _ _ => cases h4
      | text _ ht =>
        have hz : textLen [0x1B, 0x5B, d1, d2, d3] = 0 := by simp [textLen, esc, openingBracket]
        rw [textLen_plain (r :: pre) _ hp hz, List.drop_left] at ht
        rw [textLen_plain (r :: pre) _ hp hz]
        cases ht with
        | done h4 => rw [hq] at h4; cases h4
        | start h4 => rw [hq] at h4; cases h4
        | other h4 h5 _ => rw [hq] at h4; cases h4; simp at h5
        | overrun _ => simp
        | stop h4 _ _ => rw [hq] at h4; cases h4
        | stopOverrun h4 _ _ => rw [hq] at h4; cases h4

theorem three_strip {env : Env} (hd : AsciiDigits env) {pre : List Rune} (hp : (0x1B : Rune) ∉ pre)
    {d1 d2 d3 : Rune} (h1 : env.isDigit d1 = true) (h2 : env.isDigit d2 = true) (h3 : env.isDigit d3 = true)
    (hlen : ((pre.length + 5 : Nat) : Int) < 2 ^ 63) (more : List Rune) :
    (more = [] → stripANSIFromRunes env (pre ++ [0x1B, 0x5B, d1, d2, d3] ++ more) ⟨0, pre.length + 5⟩ =
      .error .slice) ∧
    (more ≠ [] → stripANSIFromRunes env (pre ++ [0x1B, 0x5B, d1, d2, d3] ++ more) ⟨0, pre.length + 5⟩ =
      .ok (⟨some (.view ⟨0, pre.length + 6⟩), none, none, ⟨pre.length + 5, 0⟩⟩,
        pre ++ [0x1B, 0x5B, d1, d2, d3] ++ more)) := by
  have hl5 : (pre ++ [0x1B, 0x5B, d1, d2, d3]).length = pre.length + 5 := by simp
  have helems : View.elems (pre ++ [0x1B, 0x5B, d1, d2, d3] ++ more) ⟨0, pre.length + 5⟩ =
      pre ++ [0x1B, 0x5B, d1, d2, d3] := by
    simp only [View.elems, List.drop_zero]
    rw [← hl5, List.take_left]
  have hspec := strip_spec env hd (pre ++ [0x1B, 0x5B, d1, d2, d3] ++ more) ⟨0, pre.length + 5⟩
    (by unfold View.Valid; simp) hlen
  rw [helems] at hspec
  constructor
  · intro hm
    subst hm
    rcases hspec with h | ⟨a, x, b, c, d, g1, g2, _, _⟩
    · exact h.1
    · obtain ⟨e1, _, _, e4, _⟩ := strip_three hd hp h1 h2 h3 g1
      simp at g2
      omega
  · intro hm
    have hml : 0 < more.length := List.length_pos_iff.mpr hm
    rcases hspec with h | ⟨a, x, b, c, d, g1, _, _, g4⟩
    · have := h.2.1
      rw [List.length_append, hl5] at this
      simp only at this
      omega
    · obtain ⟨e1, e2, e3, e4, e5⟩ := strip_three hd hp h1 h2 h3 g1
      subst e1 e2 e3 e4 e5
      rw [g4]
      simp [result, optView]

/-- **C37 fails** for a text that ends in `ESC [` and three digits, if the slice has unused capacity: the
text of the result has one rune more than the input, taken from beyond its end. -/
theorem C37_cut_short_fails (env : Env) (hd : AsciiDigits env) (pre : List Rune) (hp : (0x1B : Rune) ∉ pre)
    (d1 d2 d3 y : Rune) (more : List Rune) (h1 : env.isDigit d1 = true) (h2 : env.isDigit d2 = true)
    (h3 : env.isDigit d3 = true) (hlen : ((pre.length + 5 : Nat) : Int) < 2 ^ 63) :
    ∃ tok mem', stripToken env (pre ++ [0x1B, 0x5B, d1, d2, d3] ++ y :: more) ⟨0, pre.length + 5⟩ =
        .ok ([tok], mem') ∧
      tokRunes mem' tok = pre ++ [0x1B, 0x5B, d1, d2, d3] ++ [y] := by
  have hs := (three_strip hd hp h1 h2 h3 hlen (y :: more)).2 (by simp)
  refine ⟨⟨some (.view ⟨0, pre.length + 6⟩), none, none, ⟨pre.length + 5, 0⟩⟩,
    pre ++ [0x1B, 0x5B, d1, d2, d3] ++ y :: more, ?_, ?_⟩
  · rw [stripToken, stripTokenLoop, hs]; rfl
  · simp only [tokRunes, optElems, textElems, Sl.elems, View.elems, List.drop_zero, List.nil_append,
      List.append_nil]
    have : pre.length + 6 = (pre ++ [0x1B, 0x5B, d1, d2, d3] ++ [y]).length := by simp
    rw [this]
    have e : pre ++ [0x1B, 0x5B, d1, d2, d3] ++ y :: more =
        (pre ++ [0x1B, 0x5B, d1, d2, d3] ++ [y]) ++ more := by simp
    rw [e, List.take_left]

theorem getLast?_append_ne {a b : List Rune} (h : b ≠ []) : (a ++ b).getLast? = b.getLast? := by
  rw [List.getLast?_append, List.getLast?_eq_some_getLast h]; rfl

example : ¬ CutShort Env.ascii (View.elems sampleMem ⟨0, 11⟩) := by
  rintro ⟨pre, body, e, h1, pre2, x, d1, d2, d3, e2, _⟩
  have hb : body ≠ [] := by
    intro hb; rw [hb] at e2
    have := congrArg List.length e2
    simp at this
  have h2 := congrArg List.getLast? e
  rw [getLast?_append_ne hb] at h2
  have h3 : (0x63 : Rune) ∈ body := List.mem_of_getLast? (by rw [← h2]; decide)
  have := h1 _ h3
  revert this; decide

/-! ## C38 -/

/-- **C38.** The array of the argument is unchanged, up to its capacity. -/
theorem C38_array_unchanged (env : Env) (hd : AsciiDigits env) (mem : List Rune) (v : View) (h : IsSlice mem v) :
    (∀ tok mem', stripANSIFromRunes env mem v = .ok (tok, mem') → mem' = mem) ∧
    (∀ toks mem', stripToken env mem v = .ok (toks, mem') → mem' = mem) := by
  constructor
  · intro tok mem' he
    rcases strip_spec env hd mem v h.1 h.2 with ⟨h1, _⟩ | ⟨a, x, b, c, d, _, _, _, h4⟩
    · rw [h1] at he; cases he
    · rw [h4] at he; cases he; rfl
  · intro toks mem' he
    rcases stripToken_spec env hd mem v h.1 h.2 with ⟨h1, _⟩ | ⟨toks, _, h4⟩
    · rw [h1] at he; cases he
    · rw [h4] at he; cases he; rfl

/-- Here the text is appended to: `a ESC [ A b`. -/
example : stripToken Env.ascii [0x61, 0x1B, 0x5B, 0x41, 0x62] ⟨0, 5⟩ =
    .ok ([⟨some (.view ⟨0, 4⟩), none, none, ⟨4, 1⟩⟩, ⟨some (.view ⟨4, 1⟩), none, none, ⟨5, 0⟩⟩],
      [0x61, 0x1B, 0x5B, 0x41, 0x62]) := by decide +kernel

/-! ## C39 -/

/-- **C39.** A token without introducer is one text. -/
theorem C39_plain_text (env : Env) (hd : AsciiDigits env) (mem : List Rune) (v : View) (h : IsSlice mem v)
    (hp : ¬ introducer <:+: v.elems mem) :
    ∃ tok, stripToken env mem v = .ok ([tok], mem) ∧ tok.start = none ∧ tok.stop = none ∧
      textElems mem tok.text = v.elems mem ∧ tok.remainder.len = 0 := by
  have hl := View.elems_length h.1
  rcases stripToken_spec env hd mem v h.1 h.2 with ⟨_, _, h1⟩ | ⟨toks, h1, h2⟩
  · obtain ⟨pre, body, e, _⟩ := overruns_cutShort hd h1
    exact absurd ⟨pre, body, e.symm⟩ hp
  · obtain ⟨a, x, b, c, d, toks', g1, g2, g3, g4, g5⟩ := run_inv h1 h.1
    obtain ⟨e1, e2, e3, e4, e5⟩ := strip_no_introducer hp g1
    subst e1 e2 e3 e4 e5
    rw [Nat.zero_add, List.drop_length] at g5
    rcases g5 with ⟨_, e⟩ | ⟨e, _⟩
    · subst e
      refine ⟨_, by rw [h2, g3], rfl, by simp [result, optView], ?_, by simp [result, hl]⟩
      rw [result_text mem v g1 (by omega), List.drop_zero, List.take_length]
    · exact absurd rfl e

/-- A lone ESC is not an introducer. -/
example : ¬ introducer <:+: ([0x61, 0x1B, 0x62, 0x5B] : List Rune) := by
  rintro ⟨s, t, e⟩
  match s, e with
  | [], e => simp [introducer] at e
  | [_], e => simp [introducer] at e
  | [_, _], e => simp [introducer] at e
  | _ :: _ :: _ :: s, e => have := congrArg List.length e; simp [introducer] at this; omega

/-! ## C40 -/

/-- **C40** (partial: parameters have at most two digits). Styled words with unstyled text between and
after them are split into exactly their parts. -/
theorem C40_words_partial (env : Env) (hd : AsciiDigits env) (mem : List Rune) (v : View) (h : IsSlice mem v)
    (ws : List Word) (tail : List Rune) (hw : ∀ w ∈ ws, w.Good env) (ht : (0x1B : Rune) ∉ tail)
    (hne : ws ≠ [] ∨ tail ≠ []) (he : v.elems mem = ws.flatMap Word.runes ++ tail) :
    ∃ toks, stripToken env mem v = .ok (toks, mem) ∧
      toks.map (tokParts mem) = ws.flatMap Word.parts ++ plainPart tail := by
  have hm : MadeOf env AnySeq (v.elems mem) := by
    rw [he]
    exact madeOf_append (madeOf_words hw) (madeOf_plain ht)
  rcases stripToken_spec env hd mem v h.1 h.2 with ⟨_, _, h1⟩ | ⟨toks, h1, h2⟩
  · exact absurd (overruns_cutShort hd h1) (cutShort_madeOf hd hm)
  · refine ⟨toks, h2, runOf_words hd ht ws toks hw (Or.inr ⟨?_, v, he, h.1, h1⟩)⟩
    intro e
    rcases hne with hne | hne
    · match ws, hne with
      | w :: ws, _ => simp [Word.runes, runes_ne_nil] at e
    · simp [hne] at e

/-- **C40** (partial, as before). Texts with a start sequence, a stop sequence, both or none, with a sequence between
any two texts, are split into exactly their parts. -/
theorem C40_chunks_partial (env : Env) (hd : AsciiDigits env) (mem : List Rune) (v : View) (h : IsSlice mem v)
    (cs : List Chunk) (hg : ∀ c ∈ cs, c.Good env) (ha : Apart cs) (hne : cs ≠ [])
    (he : v.elems mem = cs.flatMap Chunk.runes) :
    ∃ toks, stripToken env mem v = .ok (toks, mem) ∧
      toks.map (tokParts mem) = cs.map (fun c => (seqRunes c.start, c.text, seqRunes c.stop)) := by
  have hm : MadeOf env AnySeq (v.elems mem) := by rw [he]; exact madeOf_chunks hg
  rcases stripToken_spec env hd mem v h.1 h.2 with ⟨_, _, h1⟩ | ⟨toks, h1, h2⟩
  · exact absurd (overruns_cutShort hd h1) (cutShort_madeOf hd hm)
  · refine ⟨toks, h2, runOf_chunks hd cs toks hg ha (Or.inr ⟨?_, v, he, h.1, h1⟩)⟩
    obtain ⟨c, cs', rfl⟩ := List.exists_cons_of_ne_nil hne
    simp [Chunk.runes, (hg c (by simp)).full]

/-- **C40** (partial, as before). One styled word, and after it anything that is not cut short: the call
returns exactly the three parts, and the rest remains. -/
theorem C40_one_word_partial (env : Env) (hd : AsciiDigits env) (mem : List Rune) (v : View) (h : IsSlice mem v)
    (s p : CtlSeq) (t rest : List Rune) (hs : s.WellFormed env ∧ s.Short ∧ s.Starts)
    (hp : p.WellFormed env ∧ p.Short ∧ p.Stops) (ht : (0x1B : Rune) ∉ t)
    (hr : ¬ EndsLong env rest) (he : v.elems mem = s.runes ++ t ++ p.runes ++ rest) :
    ∃ tok, stripANSIFromRunes env mem v = .ok (tok, mem) ∧ tokParts mem tok = (s.runes, t, p.runes) ∧
      tok.remainder.elems mem = rest := by
  have he' : v.elems mem = s.runes ++ (t ++ (p.runes ++ rest)) := by simpa using he
  have hl := View.elems_length h.1
  rcases strip_spec env hd mem v h.1 h.2 with ⟨_, _, h1⟩ | ⟨a, x, b, c, d, h1, h2, h3, h4⟩
  · rw [he'] at h1
    exact absurd (cut_of_overruns (overruns_seq hd hp.1 hp.2.1 (overruns_plain ht (textLen_seq p rest)
      (overruns_seq hd hs.1 hs.2.1 h1)))) hr
  · refine ⟨_, h4, ?_, ?_⟩
    · have h1' := h1
      rw [he'] at h1'
      obtain ⟨e1, e2, e3, e4⟩ := strip_word hd hs hp ht (fun k hk => hr (cut_of_overruns (.here (by rw [hk, (decodeSeq_overrun hd hk (by omega)).2.1])))) h1'
      have hlen := congrArg List.length he'
      rw [hl] at hlen
      simp only [List.length_append] at hlen
      unfold tokParts
      rw [result_start mem v a x b c d (by omega), result_text mem v h1 (by omega),
        result_stop mem v a x b c d h3 (by omega), he', e1, e3, e2]
      rw [List.take_left, List.drop_left, List.take_left, ← List.drop_drop, List.drop_left, List.drop_left,
        Nat.add_sub_cancel_left, List.take_left]
    · have h1' := h1
      rw [he'] at h1'
      obtain ⟨e1, e2, e3, e4⟩ := strip_word hd hs hp ht (fun k hk => hr (cut_of_overruns (.here (by rw [hk, (decodeSeq_overrun hd hk (by omega)).2.1])))) h1'
      have : (result v a x b c d).remainder = ⟨v.off + (a + d), v.len - (a + d)⟩ := rfl
      rw [this, elems_drop, he', e4, e3, e1]
      rw [← List.drop_drop, List.drop_left, ← List.drop_drop, List.drop_left, List.drop_left]

/-- A start sequence, a text, a start sequence, a text: four chunks of which one is complete. -/
example : (∀ c ∈ [(⟨some boldSeq, [0x61], none⟩ : Chunk), ⟨some boldSeq, [0x62], some resetSeq⟩, ⟨none, [0x63], some resetSeq⟩,
    ⟨none, [0x64], none⟩], c.Good Env.ascii) ∧
    Apart [⟨some boldSeq, [0x61], none⟩, ⟨some boldSeq, [0x62], some resetSeq⟩, ⟨none, [0x63], some resetSeq⟩, ⟨none, [0x64], none⟩] := by
  have h1 : boldSeq.WellFormed Env.ascii ∧ boldSeq.Short ∧ boldSeq.Starts :=
    ⟨⟨by decide, by decide, by decide⟩, by unfold CtlSeq.Short; decide, Or.inr (Or.inr ⟨rfl, by unfold CtlSeq.ZeroArg; decide⟩)⟩
  have h2 : resetSeq.WellFormed Env.ascii ∧ resetSeq.Short ∧ resetSeq.Stops :=
    ⟨⟨by decide, by decide, by decide⟩, by unfold CtlSeq.Short; decide, Or.inr (Or.inr ⟨rfl, by unfold CtlSeq.ZeroArg; decide⟩)⟩
  refine ⟨?_, by simp [Apart]⟩
  intro c hc
  simp only [List.mem_cons, List.not_mem_nil, or_false] at hc
  rcases hc with rfl | rfl | rfl | rfl <;>
    exact ⟨by decide, by decide, fun s hs => by cases hs <;> exact h1, fun s hs => by cases hs <;> exact h2⟩

example : Word.Good Env.ascii ⟨[0x63], boldSeq, [0x61, 0x62], resetSeq⟩ := by
  refine ⟨by decide, by decide, ⟨⟨by decide, by decide, by decide⟩, by unfold CtlSeq.Short; decide, ?_⟩,
    ⟨⟨by decide, by decide, by decide⟩, by unfold CtlSeq.Short; decide, ?_⟩⟩
  · exact Or.inr (Or.inr ⟨rfl, by unfold CtlSeq.ZeroArg; decide⟩)
  · exact Or.inr (Or.inr ⟨rfl, by unfold CtlSeq.ZeroArg; decide⟩)

/-- **C40 fails** for parameters of three digits: the sequence `ESC [ 3 8 ; 5 ; d d d m` which selects a
colour is not found to be a start sequence, but is left in the text. -/
theorem C40_three_digits_fails (env : Env) (hd : AsciiDigits env) (d1 d2 d3 : Rune)
    (h1 : env.isDigit d1 = true) (h2 : env.isDigit d2 = true) (h3 : env.isDigit d3 = true)
    (mem : List Rune) (v : View) (h : IsSlice mem v) (rest : List Rune)
    (he : v.elems mem = CtlSeq.runes ⟨[0x33, 0x38], [(0x3B, [0x35]), (0x3B, [d1, d2, d3])], 0x6D⟩ ++ rest) :
    ∃ tok, stripANSIFromRunes env mem v = .ok (tok, mem) ∧ tok.start = none ∧ tok.stop = none ∧
      textElems mem tok.text = CtlSeq.runes ⟨[0x33, 0x38], [(0x3B, [0x35]), (0x3B, [d1, d2, d3])], 0x6D⟩ ∧
      tok.remainder.elems mem = rest := by
  have hdig : ∀ c : Rune, 0x30 ≤ c → c ≤ 0x39 → env.isDigit c = true :=
    fun c g1 g2 => (hd c (by omega) (by omega)).mpr ⟨g1, g2⟩
  have hsemi : env.isDigit 0x3B = false := by
    cases hc : env.isDigit 0x3B with
    | false => rfl
    | true => exact absurd ((hd 0x3B (by decide) (by decide)).mp hc) (by decide)
  have hkind : ∀ z, keyKind d3 z = .other := by
    intro z
    have hne : ∀ c : Rune, 0 ≤ c → c < 128 → ¬ (0x30 ≤ c ∧ c ≤ 0x39) → (d3 == c) = false := by
      intro c g1 g2 g3
      apply Bool.eq_false_iff.mpr
      intro hc
      have : d3 = c := by simpa using hc
      subst this
      exact g3 ((hd d3 g1 g2).mp h3)
    unfold keyKind
    rw [hne 0x73 (by decide) (by decide) (by decide), hne 0x68 (by decide) (by decide) (by decide),
      hne 0x75 (by decide) (by decide) (by decide), hne 0x6C (by decide) (by decide) (by decide),
      hne 0x6D (by decide) (by decide) (by decide)]
    rfl
  have hdec : decodeSeq env (v.elems mem) = some (11, .other) := by
    rw [he, runes_eq]
    simp only [decodeSeq]
    rw [if_pos ⟨trivial, trivial⟩]
    simp [moreRunes, seqScan, hdig 0x33, hdig 0x38, hdig 0x35, hsemi, h1, h2, h3, hkind]
  have hl := View.elems_length h.1
  have hlen : v.len = 11 + rest.length := by
    rw [← hl, he, List.length_append, runes_length]; rfl
  have hrl : (CtlSeq.runes ⟨[0x33, 0x38], [(0x3B, [0x35]), (0x3B, [d1, d2, d3])], 0x6D⟩).length = 11 := by
    rw [runes_length]; rfl
  have hdecv := decode_spec env hd mem v h.1 h.2 0 (by omega)
  rw [List.drop_zero, hdec] at hdecv
  simp only at hdecv
  have hv := h.1
  unfold View.Valid at hv
  rw [if_pos (by omega), show min (0 + 11) v.len = 11 by omega] at hdecv
  refine ⟨_, strip_inl (startLoop_other hdecv (rest_at mem v h.1 11 (by omega))), rfl, rfl, ?_, ?_⟩
  · simp only [textElems, Sl.elems]
    rw [elems_part mem v 0 11 (by omega), he, List.drop_zero]
    conv => lhs; rw [← hrl]
    rw [List.take_left]
  · simp only
    rw [elems_drop, he]
    conv => lhs; rw [← hrl]
    rw [List.drop_left]

/-! ## C41 -/

/-- **C41.** Each start sequence reported is a control sequence that starts a style, each stop sequence
one that ends a style. -/
theorem C41_sequences (env : Env) (hd : AsciiDigits env) (mem : List Rune) (v : View) (h : IsSlice mem v)
    (toks : List StrippedToken) (mem' : List Rune) (he : stripToken env mem v = .ok (toks, mem')) :
    ∀ tok ∈ toks,
      (tok.start = none ∨ ∃ s : CtlSeq, s.WellFormed env ∧ s.Starts ∧ optElems mem tok.start = s.runes) ∧
      (tok.stop = none ∨ ∃ s : CtlSeq, s.WellFormed env ∧ s.Stops ∧ optElems mem tok.stop = s.runes) := by
  rcases stripToken_spec env hd mem v h.1 h.2 with ⟨h1, _⟩ | ⟨toks', h1, h2⟩
  · rw [h1] at he; cases he
  · rw [h2] at he
    cases he
    intro tok ht
    obtain ⟨g1, g2⟩ := run_sequences hd h1 h.1 tok ht
    refine ⟨g1.imp_right ?_, g2.imp_right ?_⟩
    · rintro ⟨s, e1, _, e3, e4⟩; exact ⟨s, e1, e3, e4⟩
    · rintro ⟨s, e1, _, e3, e4⟩; exact ⟨s, e1, e3, e4⟩

example : (stripToken Env.ascii sampleMem ⟨0, 11⟩).map (fun r => r.1.map (tokParts sampleMem)) =
    .ok [(boldSeq.runes, [0x61, 0x62], resetSeq.runes), ([], [0x63], [])] := by decide +kernel

/-! ## C42 -/

/-- **C42** (partial: the input is made of runes other than ESC and of well-formed sequences with
parameters of at most two digits, whose key code is not ESC). No text contains a start or stop sequence. -/
theorem C42_no_sequence_partial (env : Env) (hd : AsciiDigits env) (mem : List Rune) (v : View) (h : IsSlice mem v)
    (hm : MadeOf env (fun _ => True) (v.elems mem)) :
    ∃ toks, stripToken env mem v = .ok (toks, mem) ∧
      ∀ tok ∈ toks, ∀ s : CtlSeq, s.WellFormed env → s.Starts ∨ s.Stops →
        ¬ s.runes <:+: textElems mem tok.text := by
  rcases stripToken_spec env hd mem v h.1 h.2 with ⟨_, _, h1⟩ | ⟨toks, h1, h2⟩
  · exact absurd (overruns_cutShort hd h1) (cutShort_madeOf hd hm)
  · exact ⟨toks, h2, fun tok ht s hs hk => inert_no_infix hd (run_madeOf hd h1 h.1 hm tok ht) s hs hk⟩

example : MadeOf Env.ascii (fun _ => True) (View.elems sampleMem ⟨0, 11⟩) :=
  .seq (s := boldSeq) ⟨by decide, by decide, by decide⟩ (by unfold CtlSeq.Short; decide) (by decide) trivial
    (.rune (by decide) (.rune (by decide) (.seq (s := resetSeq) ⟨by decide, by decide, by decide⟩
      (by unfold CtlSeq.Short; decide) (by decide) trivial (.rune (by decide) .nil))))

/-- **C42 fails** for a stop sequence after a lone ESC: the whole is reported as text. -/
theorem C42_double_escape_fails (env : Env) (hd : AsciiDigits env) (mem : List Rune) (v : View) (h : IsSlice mem v)
    (s : CtlSeq) (hs : s.WellFormed env) (hk : s.Stops) (he : v.elems mem = 0x1B :: s.runes) :
    ∃ tok, stripToken env mem v = .ok ([tok], mem) ∧ textElems mem tok.text = 0x1B :: s.runes := by
  have hkey := word_key (Or.inr hk)
  have hrs : s.runes = esc :: openingBracket :: (s.first ++ moreRunes s.more ++ [s.key]) := by
    have := runes_eq s []
    rwa [List.append_nil] at this
  have htail := tail_no_esc hd hs hkey
  have h0 : decodeSeq env (v.elems mem) = none := by
    rw [he, hrs]; simp only [decodeSeq]
    exact if_neg (fun hc => absurd hc.2 (by decide))
  have hno : ¬ introducer <:+: openingBracket :: (s.first ++ moreRunes s.more ++ [s.key]) := by
    intro hc
    exact htail (hc.subset (by simp [introducer]))
  have hlen : textLen (v.elems mem) = (v.elems mem).length := by
    rw [he, hrs]
    simp only [textLen]
    rw [if_pos (by decide), if_neg (by decide), textLen_no_introducer hno]
    simp only [List.length_cons]; omega
  have hl := View.elems_length h.1
  have hst : ∀ {a b c d x}, Strip env (v.elems mem) a x b c d → a = 0 ∧ b = v.len ∧ d = v.len := by
    intro a b c d x hstr
    cases hstr with
    | styled h1 _ _ => rw [h0] at h1; cases h1
    | plain hb =>
      cases hb with
      | other h1 _ => rw [h0] at h1; cases h1
      | overrun h1 => rw [h0] at h1; cases h1
      | stop h1 _ => rw [h0] at h1; cases h1
      | start h1 _ _ => cases h1
      | text _ ht =>
        rw [hlen, List.drop_length] at ht
        rw [hlen]
        cases ht with
        | done _ => simp [hl]
        | start h1 => cases h1
        | other h1 _ _ => cases h1
        | overrun h1 => cases h1
        | stop h1 _ _ => cases h1
        | stopOverrun h1 _ _ => cases h1
  rcases stripToken_spec env hd mem v h.1 h.2 with ⟨_, _, h1⟩ | ⟨toks, h1, h2⟩
  · exfalso
    obtain ⟨pre, body, e, hb, pre2, y, d1, d2, d3, e2, _⟩ := overruns_cutShort hd h1
    have hne : body ≠ [] := by
      intro hb; rw [hb] at e2
      have := congrArg List.length e2
      simp at this
    rw [he, hrs] at e
    have e3 := congrArg List.getLast? e
    rw [getLast?_append_ne hne] at e3
    have hlast : body.getLast? = some s.key := by
      rw [← e3]
      have : (0x1B : Rune) :: esc :: openingBracket :: (s.first ++ moreRunes s.more ++ [s.key]) =
          (0x1B :: esc :: openingBracket :: (s.first ++ moreRunes s.more)) ++ [s.key] := by simp
      rw [this, List.getLast?_concat]
    rcases hb _ (List.mem_of_getLast? hlast) with hc | hc
    · rw [hs.key.1] at hc; cases hc
    · exact hs.key.2 hc
  · obtain ⟨a, x, b, c, d, toks', g1, g2, g3, g4, g5⟩ := run_inv h1 h.1
    obtain ⟨e1, e2, e3⟩ := hst g1
    subst e1 e2 e3
    rw [Nat.zero_add, List.drop_of_length_le (by omega)] at g5
    rcases g5 with ⟨_, e⟩ | ⟨e, _⟩
    · subst e
      refine ⟨_, by rw [h2, g3], ?_⟩
      rw [result_text mem v g1 (by omega), List.drop_zero, List.take_of_length_le (by omega), he]
    · exact absurd rfl e

/-! ## C43 -/

/-- **C43** (partial: it fails for slices without unused capacity that end within a control sequence, in a parameter
of three digits). StripToken returns normally if and only if the slice has unused capacity or the text does not end in
this way; then StripANSIFromRunes returns normally too. -/
theorem C43_no_panic_partial (env : Env) (hd : AsciiDigits env) (mem : List Rune) (v : View) (h : IsSlice mem v) :
    ((∃ r, stripToken env mem v = .ok r) ↔ v.off + v.len < mem.length ∨ ¬ EndsLong env (v.elems mem)) ∧
    (v.off + v.len < mem.length ∨ ¬ EndsLong env (v.elems mem) → ∃ r, stripANSIFromRunes env mem v = .ok r) := by
  refine ⟨⟨?_, fun hc => ?_⟩, fun hc => ?_⟩
  · rintro ⟨r, hr⟩
    by_cases hc : EndsLong env (v.elems mem)
    · rcases stripToken_spec env hd mem v h.1 h.2 with ⟨g1, _⟩ | ⟨toks', g1, g2⟩
      · rw [g1] at hr; cases hr
      · exact .inl (run_over hd g1 h.1 ((overruns_iff hd).mpr hc)).1
    · exact .inr hc
  rotate_left
  · rcases strip_spec env hd mem v h.1 h.2 with ⟨_, h1, h2⟩ | ⟨a, x, b, c, d, _, _, _, h4⟩
    · rcases hc with hc | hc
      · omega
      · exact absurd (cut_of_overruns h2) hc
    · exact ⟨_, h4⟩
  · rcases stripToken_spec env hd mem v h.1 h.2 with ⟨_, h1, h2⟩ | ⟨toks, _, h2⟩
    · rcases hc with hc | hc
      · omega
      · exact absurd (cut_of_overruns h2) hc
    · exact ⟨_, h2⟩

/-- **C43 fails** for a text that ends in `ESC [` and three digits, if the slice has no unused capacity. -/
theorem C43_cut_short_fails (env : Env) (hd : AsciiDigits env) (pre : List Rune) (hp : (0x1B : Rune) ∉ pre)
    (d1 d2 d3 : Rune) (h1 : env.isDigit d1 = true) (h2 : env.isDigit d2 = true) (h3 : env.isDigit d3 = true)
    (hlen : ((pre.length + 5 : Nat) : Int) < 2 ^ 63) :
    stripANSIFromRunes env (pre ++ [0x1B, 0x5B, d1, d2, d3]) ⟨0, pre.length + 5⟩ = .error .slice := by
  have := (three_strip hd hp h1 h2 h3 hlen []).1 rfl
  rwa [List.append_nil] at this

example : stripToken Env.ascii [0x1B, 0x5B, 0x31, 0x32, 0x33] ⟨0, 5⟩ = .error .slice := by decide +kernel

/-- The text is cut in its last parameter. -/
example : EndsLong Env.ascii [0x61, 0x1B, 0x5B, 0x31, 0x3B, 0x32, 0x33, 0x34] :=
  ⟨_, ⟨introducer ++ [0x31] ++ [0x3B], 0x32, 0x33, 0x34, .next .first (by decide) (by decide) (by decide), by decide, by decide, by decide, rfl⟩,
    .rune (by decide) .here⟩

/-- Here a parameter of three digits has ended the sequence before. -/
example (hd : AsciiDigits Env.ascii) : ¬ EndsLong Env.ascii [0x1B, 0x5B, 0x31, 0x32, 0x33, 0x3B, 0x34, 0x35, 0x36] := by
  have h := (C43_no_panic_partial Env.ascii hd [0x1B, 0x5B, 0x31, 0x32, 0x33, 0x3B, 0x34, 0x35, 0x36] ⟨0, 9⟩
    ⟨by simp [View.Valid], by decide⟩).1.mp ⟨([⟨some (.view ⟨0, 6⟩), none, none, ⟨6, 3⟩⟩,
      ⟨some (.view ⟨6, 3⟩), none, none, ⟨9, 0⟩⟩], [0x1B, 0x5B, 0x31, 0x32, 0x33, 0x3B, 0x34, 0x35, 0x36]), by decide +kernel⟩
  rcases h with h | h
  · exact absurd h (by decide)
  · exact h

end Verif.Props
