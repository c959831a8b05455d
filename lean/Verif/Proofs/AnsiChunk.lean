import Verif.Proofs.AnsiClean

/-! # Tokens made of chunks -/

namespace Verif.Proofs.Ansi
open Verif.Go Verif.Model Verif.Model.Ansi Verif.Spec.Ansi

/-- What may follow a chunk. -/
def Follows (env : Env) (p : Option CtlSeq) (rest : List Rune) : Prop :=
  match p with
  | some _ => ∀ k, decodeSeq env rest ≠ some (rest.length + 1, k)
  | none => (rest = [] ∨ ∃ n, decodeSeq env rest = some (n, .start)) ∧ textLen rest = 0

theorem body_chunk {env : Env} (hd : AsciiDigits env) {s : Bool} {p : Option CtlSeq} {t rest : List Rune}
    (hp : ∀ q, p = some q → q.WellFormed env ∧ q.Short ∧ q.Stops) (ht : (0x1B : Rune) ∉ t) (hne : t ≠ [])
    (hr : Follows env p rest) {b c d : Nat} {x : Bool} (h : Body env s (t ++ (seqRunes p ++ rest)) x b c d) :
    b = t.length ∧ c = t.length + (seqRunes p).length ∧ d = c := by
  have h0 : decodeSeq env (t ++ (seqRunes p ++ rest)) = none :=
    decodeSeq_not_esc env (by
      intro y hy
      match t, hne, ht with
      | r :: t, _, ht =>
        cases hy
        intro e
        apply ht; rw [e]; simp)
  have hz : textLen (seqRunes p ++ rest) = 0 := by
    cases p with
    | none => exact hr.2
    | some q => exact textLen_seq q rest
  cases h with
  | other h3 _ => rw [h0] at h3; cases h3
  | overrun h3 => rw [h0] at h3; cases h3
  | stop h3 _ => rw [h0] at h3; cases h3
  | start _ h3 _ => rw [h0] at h3; cases h3
  | text _ htr =>
    rw [textLen_plain t _ ht hz, List.drop_left] at htr
    rw [textLen_plain t _ ht hz]
    cases p with
    | none =>
      have hr' := hr.1
      simp only [seqRunes, List.nil_append] at htr ⊢
      have hk : ∀ n k, decodeSeq env rest = some (n, k) → k = .start := by
        intro n k h3
        rcases hr' with e | ⟨m, e⟩
        · rw [e] at h3; cases h3
        · rw [e] at h3; cases h3; rfl
      cases htr with
      | done h3 => simp
      | start h3 => simp
      | other h3 _ _ => cases hk _ _ h3
      | overrun h3 => cases hk _ _ h3
      | stop h3 _ _ => cases hk _ _ h3
      | stopOverrun h3 _ _ => cases hk _ _ h3
    | some q =>
      obtain ⟨g1, g2, g3⟩ := hp q rfl
      have h2 := decodeSeq_complete hd g1 g2 rest
      rw [(kindOf_stop q).mpr g3] at h2
      simp only [seqRunes] at htr ⊢
      cases htr with
      | done h3 => rw [h2] at h3; cases h3
      | start h3 => rw [h2] at h3; cases h3
      | other h3 _ _ => rw [h2] at h3; cases h3
      | overrun h3 => rw [h2] at h3; have := (Prod.mk.inj (Option.some.inj h3)).2; cases this
      | stop h3 _ _ => rw [h2] at h3; cases h3; simp
      | stopOverrun h3 _ h4 =>
        rw [h2] at h3; cases h3
        rw [List.drop_left] at h4
        exact absurd h4 (hr _)

/-- The parts of the result for a chunk. -/
theorem strip_chunk {env : Env} (hd : AsciiDigits env) {c₀ : Chunk} (hg : c₀.Good env) {rest : List Rune}
    (hr : Follows env c₀.stop rest) {a b c d : Nat} {x : Bool}
    (h : Strip env (seqRunes c₀.start ++ (c₀.text ++ (seqRunes c₀.stop ++ rest))) a x b c d) :
    a = (seqRunes c₀.start).length ∧ b = c₀.text.length ∧ c = c₀.text.length + (seqRunes c₀.stop).length ∧ d = c := by
  obtain ⟨s, t, p⟩ := c₀
  cases s with
  | none =>
    simp only [seqRunes, List.nil_append, List.length_nil] at h ⊢
    cases h with
    | plain h => exact ⟨rfl, body_chunk hd hg.stop hg.text hg.full hr h⟩
    | styled h3 _ hb =>
      have h0 : decodeSeq env (t ++ (seqRunes p ++ rest)) = none :=
        decodeSeq_not_esc env (by
          intro y hy
          have hne := hg.full
          have ht := hg.text
          simp only at hne ht
          match t, hne, ht with
          | r :: t, _, ht =>
            cases hy
            intro e
            apply ht; rw [e]; simp)
      have h3' : decodeSeq env (t ++ (seqRunes p ++ rest)) = some (a, .start) := h3
      rw [h0] at h3'; cases h3'
  | some s =>
    obtain ⟨g1, g2, g3⟩ := hg.start s rfl
    have h1 := decodeSeq_complete hd g1 g2 (t ++ (seqRunes p ++ rest))
    rw [(kindOf_start s).mpr g3] at h1
    simp only [seqRunes] at h ⊢
    cases h with
    | plain h =>
      cases h with
      | other h3 _ => have := h1.symm.trans h3; cases this
      | overrun h3 => have := h1.symm.trans h3; have := (Prod.mk.inj (Option.some.inj this)).2; cases this
      | stop h3 _ => have := h1.symm.trans h3; cases this
      | start h3 _ _ => cases h3
      | text h3 _ => have := h1.symm.trans h3; cases this
    | styled h3 _ hb =>
      have := h1.symm.trans h3
      cases this
      rw [List.drop_left] at hb
      exact ⟨rfl, body_chunk hd hg.stop hg.text hg.full hr hb⟩

theorem runOf_chunk {env : Env} (hd : AsciiDigits env) {mem : List Rune} {c : Chunk} (hg : c.Good env)
    {rest : List Rune} (hr : Follows env c.stop rest) {toks : List StrippedToken}
    (h : RunOf env mem (c.runes ++ rest) toks) :
    ∃ tok toks', toks = tok :: toks' ∧ tokParts mem tok = (seqRunes c.start, c.text, seqRunes c.stop) ∧
      RunOf env mem rest toks' := by
  have e : c.runes ++ rest = seqRunes c.start ++ (c.text ++ (seqRunes c.stop ++ rest)) := by simp [Chunk.runes]
  rw [e] at h
  obtain ⟨a, x, b, k, d, tok, toks', h1, h2, h3, h4, h5⟩ := runOf_inv h (by simp [hg.full])
  obtain ⟨e1, e2, e3, e4⟩ := strip_chunk hd hg hr h1
  subst e4
  subst e1 e2 e3
  refine ⟨tok, toks', h3, ?_, ?_⟩
  · rw [h4 (by simp only [List.length_append]; omega)]
    rw [List.take_left, List.drop_left, List.take_left, ← List.drop_drop, List.drop_left, List.drop_left,
      Nat.add_sub_cancel_left, List.take_left]
  · rw [← List.drop_drop, List.drop_left, ← List.drop_drop, List.drop_left, List.drop_left] at h5
    exact h5

theorem madeOf_seqRunes {env : Env} {p : Option CtlSeq}
    (h : ∀ q, p = some q → q.WellFormed env ∧ q.Short ∧ (q.Starts ∨ q.Stops)) : MadeOf env AnySeq (seqRunes p) := by
  cases p with
  | none => exact .nil
  | some q =>
    obtain ⟨g1, g2, g3⟩ := h q rfl
    have := MadeOf.seq (K := AnySeq) g1 g2 (word_key g3) trivial .nil
    rwa [List.append_nil] at this

theorem madeOf_chunk {env : Env} {c : Chunk} (hg : c.Good env) : MadeOf env AnySeq c.runes :=
  madeOf_append (madeOf_append
    (madeOf_seqRunes (fun q hq => have h := hg.start q hq; ⟨h.1, h.2.1, Or.inl h.2.2⟩)) (madeOf_plain hg.text))
    (madeOf_seqRunes (fun q hq => have h := hg.stop q hq; ⟨h.1, h.2.1, Or.inr h.2.2⟩))

theorem madeOf_chunks {env : Env} : ∀ {cs : List Chunk}, (∀ c ∈ cs, c.Good env) →
    MadeOf env AnySeq (cs.flatMap Chunk.runes)
  | [], _ => .nil
  | c :: cs, h => by
    rw [List.flatMap_cons]
    exact madeOf_append (madeOf_chunk (h c (by simp))) (madeOf_chunks (fun c hm => h c (by simp [hm])))

theorem runOf_chunks {env : Env} (hd : AsciiDigits env) {mem : List Rune} :
    ∀ (cs : List Chunk) (toks : List StrippedToken), (∀ c ∈ cs, c.Good env) → Apart cs →
    RunOf env mem (cs.flatMap Chunk.runes) toks →
    toks.map (tokParts mem) = cs.map (fun c => (seqRunes c.start, c.text, seqRunes c.stop)) := by
  intro cs
  induction cs with
  | nil =>
    intro toks _ _ h
    rcases h with ⟨_, e⟩ | ⟨e, _⟩
    · subst e; rfl
    · exact absurd rfl e
  | cons c cs ih =>
    intro toks hg ha h
    rw [List.flatMap_cons] at h
    have hrest : MadeOf env AnySeq (cs.flatMap Chunk.runes) := madeOf_chunks (fun c hc => hg c (by simp [hc]))
    have hf : Follows env c.stop (cs.flatMap Chunk.runes) := by
      unfold Follows
      cases hs : c.stop with
      | some q =>
        intro k hk
        exact cutShort_madeOf hd hrest (overrun_cutShort hd hk)
      | none =>
        cases cs with
        | nil => exact ⟨Or.inl rfl, rfl⟩
        | cons c' cs =>
          have h1 := ha.1
          rw [hs] at h1
          cases hst : c'.start with
          | none => rw [hst] at h1; simp at h1
          | some q =>
            obtain ⟨g1, g2, g3⟩ := (hg c' (by simp)).start q hst
            have e : (c' :: cs).flatMap Chunk.runes =
                q.runes ++ (c'.text ++ (seqRunes c'.stop ++ cs.flatMap Chunk.runes)) := by
              simp [Chunk.runes, hst, seqRunes]
            rw [e]
            refine ⟨Or.inr ⟨q.runes.length, ?_⟩, textLen_seq _ _⟩
            rw [decodeSeq_complete hd g1 g2, (kindOf_start q).mpr g3]
    obtain ⟨tok, toks', h1, h2, h3⟩ := runOf_chunk hd (hg c (by simp)) hf h
    have ha' : Apart cs := by
      cases cs with
      | nil => exact trivial
      | cons c' cs => exact ha.2
    rw [h1, List.map_cons, List.map_cons, h2, ih toks' (fun c hc => hg c (by simp [hc])) ha' h3]

end Verif.Proofs.Ansi
