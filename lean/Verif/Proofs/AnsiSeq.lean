import Verif.Proofs.AnsiRun

/-! # Control sequences, as specified, and the scan -/

namespace Verif.Proofs.Ansi
open Verif.Go Verif.Model Verif.Model.Ansi Verif.Spec.Ansi

/-- The kind of a sequence. -/
def kindOf (s : CtlSeq) : Kind := keyKind s.key (s.first.all (· == 0x30))

theorem zeroArg_iff (s : CtlSeq) : s.first.all (· == 0x30) = true ↔ s.ZeroArg := by
  simp [CtlSeq.ZeroArg, List.all_eq_true]

theorem kindOf_start (s : CtlSeq) : kindOf s = .start ↔ s.Starts := by
  unfold kindOf keyKind CtlSeq.Starts
  rw [← zeroArg_iff]
  cases s.first.all (· == 0x30)
  all_goals
    simp only [beq_iff_eq, Bool.or_eq_true]
    by_cases h1 : s.key = 0x73
    · simp [h1]
    by_cases h2 : s.key = 0x68
    · simp [h2]
    by_cases h3 : s.key = 0x75
    · simp [h3]
    by_cases h4 : s.key = 0x6C
    · simp [h4]
    by_cases h5 : s.key = 0x6D
    · simp [h5]
    simp [h1, h2, h3, h4, h5]

theorem kindOf_stop (s : CtlSeq) : kindOf s = .stop ↔ s.Stops := by
  unfold kindOf keyKind CtlSeq.Stops
  rw [← zeroArg_iff]
  cases s.first.all (· == 0x30)
  all_goals
    simp only [beq_iff_eq, Bool.or_eq_true]
    by_cases h1 : s.key = 0x73
    · simp [h1]
    by_cases h2 : s.key = 0x68
    · simp [h2]
    by_cases h3 : s.key = 0x75
    · simp [h3]
    by_cases h4 : s.key = 0x6C
    · simp [h4]
    by_cases h5 : s.key = 0x6D
    · simp [h5]
    simp [h1, h2, h3, h4, h5]

theorem runes_eq (s : CtlSeq) (t : List Rune) :
    s.runes ++ t = esc :: openingBracket :: (s.first ++ moreRunes s.more ++ s.key :: t) := by
  simp [CtlSeq.runes, introducer, moreRunes, esc, openingBracket]

theorem runes_length (s : CtlSeq) : s.runes.length = 2 + s.first.length + (moreRunes s.more).length + 1 := by
  simp only [CtlSeq.runes, introducer, moreRunes, List.length_append, List.length_cons, List.length_nil]

/-- A well-formed sequence with short parameters is recognised. -/
theorem decodeSeq_complete {env : Env} (hd : AsciiDigits env) {s : CtlSeq} (hw : s.WellFormed env) (hs : s.Short)
    (t : List Rune) : decodeSeq env (s.runes ++ t) = some (s.runes.length, kindOf s) := by
  rw [runes_eq, runes_length]
  simp only [decodeSeq]
  rw [if_pos ⟨trivial, trivial⟩, seqScan_more env s.key t hw.key hd s.more
    (fun p hp => ⟨hw.more p hp, hs.2 p hp⟩) s.first 0 true true 2 (by have := hs.1; omega) hw.first]
  simp [kindOf]

/-- A start or stop sequence reported is a well-formed sequence with short parameters. -/
theorem decodeSeq_sound {env : Env} (hd : AsciiDigits env) {l : List Rune} {n : Nat} {k : Kind}
    (h : decodeSeq env l = some (n, k)) (hk : k ≠ .other) :
    ∃ (s : CtlSeq) (t : List Rune), s.WellFormed env ∧ s.Short ∧ l = s.runes ++ t ∧ n = s.runes.length ∧
      k = kindOf s := by
  match l, h with
  | [], h => cases h
  | [_], h => cases h
  | a :: b :: rest, h =>
    simp only [decodeSeq] at h
    split at h
    · rename_i hab
      have hs := Option.some.inj h
      have hk2 : (seqScan env 0 true true 2 rest).2 ≠ .other := by rw [hs]; exact hk
      obtain ⟨ds, more, key, t, e1, e2, e3, e4, e5, e6, e7⟩ := seqScan_sound env hd rest 0 true true 2 (by omega) hk2
      rw [hs] at e2 e7
      refine ⟨⟨ds, more, key⟩, t, ⟨e4, fun p hp => (e5 p hp).1, e6⟩, ⟨by simpa using e3, fun p hp => (e5 p hp).2⟩,
        ?_, ?_, ?_⟩
      · rw [runes_eq, hab.1, hab.2, e1]
      · rw [runes_length]; exact e2
      · simpa [kindOf] using e7
    · cases h

/-- The stop sequence among the parts. -/
theorem trail_stop {env : Env} {l : List Rune} {t s d : Nat} (h : Trail env l t s d) :
    s = 0 ∨ (decodeSeq env (l.drop t) = some (s, .stop) ∧ t + s ≤ l.length) := by
  induction h with
  | done _ => exact Or.inl rfl
  | start _ => exact Or.inl rfl
  | other _ h2 _ ih =>
    rcases ih with h | ⟨h3, h4⟩
    · exact Or.inl h
    · right
      rw [List.drop_drop] at h3
      rw [List.length_drop] at h4
      exact ⟨h3, by omega⟩
  | overrun _ => exact Or.inl rfl
  | stop h1 h2 _ => exact Or.inr ⟨h1, by omega⟩
  | stopOverrun h1 h2 _ => exact Or.inr ⟨h1, by omega⟩

theorem body_stop {env : Env} {s : Bool} {l : List Rune} {x : Bool} {b c d : Nat} (h : Body env s l x b c d) :
    c - b = 0 ∨ (decodeSeq env (l.drop b) = some (c - b, .stop) ∧ b + (c - b) ≤ l.length) := by
  cases h with
  | other _ _ => left; omega
  | overrun _ => left; omega
  | stop h1 h2 => exact Or.inr ⟨h1, by omega⟩
  | start _ _ _ => left; omega
  | text _ h =>
    have ht := textLen_le l
    rcases trail_stop h with h | ⟨h1, h2⟩
    · left; omega
    · right
      rw [List.drop_drop] at h1
      rw [List.length_drop] at h2
      rw [Nat.add_sub_cancel_left]
      exact ⟨h1, by omega⟩

theorem strip_stop {env : Env} {l : List Rune} {a b c d : Nat} {x : Bool} (h : Strip env l a x b c d) :
    c - b = 0 ∨ (decodeSeq env (l.drop (a + b)) = some (c - b, .stop) ∧ a + b + (c - b) ≤ l.length) := by
  cases h with
  | plain h =>
    rcases body_stop h with h | h
    · exact Or.inl h
    · right; rw [Nat.zero_add]; exact h
  | styled _ h2 h =>
    rcases body_stop h with h | ⟨h3, h4⟩
    · exact Or.inl h
    · right
      rw [List.drop_drop] at h3
      rw [List.length_drop] at h4
      exact ⟨h3, by omega⟩

theorem strip_start {env : Env} {l : List Rune} {a b c d : Nat} {x : Bool} (h : Strip env l a x b c d) :
    a = 0 ∨ (decodeSeq env l = some (a, .start) ∧ a ≤ l.length) := by
  cases h with
  | plain h => exact Or.inl rfl
  | styled h1 h2 _ => exact Or.inr ⟨h1, h2⟩

theorem result_sequences {env : Env} (hd : AsciiDigits env) {mem : List Rune} {v : View} (hv : v.Valid mem)
    {a b c d : Nat} {x : Bool} (h : Strip env (v.elems mem) a x b c d) :
    ((result v a x b c d).start = none ∨ ∃ s : CtlSeq, s.WellFormed env ∧ s.Short ∧ s.Starts ∧
      optElems mem (result v a x b c d).start = s.runes) ∧
    ((result v a x b c d).stop = none ∨ ∃ s : CtlSeq, s.WellFormed env ∧ s.Short ∧ s.Stops ∧
      optElems mem (result v a x b c d).stop = s.runes) := by
  have hl := View.elems_length hv
  constructor
  · rcases strip_start h with h | ⟨h1, h2⟩
    · subst h; exact Or.inl rfl
    · right
      obtain ⟨s, t, e1, e2, e3, e4, e5⟩ := decodeSeq_sound hd h1 (by simp)
      refine ⟨s, e1, e2, (kindOf_start s).mp e5.symm, ?_⟩
      rw [result_start mem v a x b c d (by omega), e3, e4, List.take_left']
      rfl
  · rcases strip_stop h with h | ⟨h1, h2⟩
    · left; simp only [result]; rw [h]; rfl
    · right
      obtain ⟨s, t, e1, e2, e3, e4, e5⟩ := decodeSeq_sound hd h1 (by simp)
      refine ⟨s, e1, e2, (kindOf_stop s).mp e5.symm, ?_⟩
      have : View.elems mem ⟨v.off + a + b, c - b⟩ = ((v.elems mem).drop (a + b)).take (c - b) := by
        rw [← elems_part mem v (a + b) (c - b) (by omega), Nat.add_assoc]
      simp only [result]
      rw [optElems_optView, this, e3, e4, List.take_left']
      rfl

theorem run_sequences {env : Env} (hd : AsciiDigits env) {mem : List Rune} {v : View} {toks : List StrippedToken}
    (h : Run env mem v toks) (hv : v.Valid mem) : ∀ tok ∈ toks,
    (tok.start = none ∨ ∃ s : CtlSeq, s.WellFormed env ∧ s.Short ∧ s.Starts ∧ optElems mem tok.start = s.runes) ∧
    (tok.stop = none ∨ ∃ s : CtlSeq, s.WellFormed env ∧ s.Short ∧ s.Stops ∧ optElems mem tok.stop = s.runes) := by
  induction h with
  | last h1 _ _ _ =>
    intro tok ht
    rw [List.mem_singleton.mp ht]
    exact result_sequences hd hv h1
  | more h1 _ _ _ h5 _ ih =>
    intro tok ht
    rcases List.mem_cons.mp ht with e | e
    · rw [e]; exact result_sequences hd hv h1
    · exact ih (by unfold View.Valid at hv ⊢; simp only; omega) tok e

/-! ## Text without introducer -/

theorem decodeSeq_no_introducer (env : Env) {l : List Rune} (h : ¬ introducer <:+: l) : decodeSeq env l = none := by
  match l, h with
  | [], _ => rfl
  | [_], _ => rfl
  | a :: b :: rest, h =>
    simp only [decodeSeq]
    apply if_neg
    intro hab
    apply h
    refine ⟨[], rest, ?_⟩
    rw [hab.1, hab.2]; rfl

theorem textLen_no_introducer : ∀ {l : List Rune}, ¬ introducer <:+: l → textLen l = l.length
  | [], _ => rfl
  | [_], _ => rfl
  | a :: b :: rest, h => by
    have h1 : ¬ introducer <:+: rest := fun ⟨s, t, e⟩ => h ⟨a :: b :: s, t, by rw [← e]; rfl⟩
    have h2 : ¬ introducer <:+: (b :: rest) := fun ⟨s, t, e⟩ => h ⟨a :: s, t, by rw [← e]; rfl⟩
    simp only [textLen]
    by_cases ha : a = esc
    · rw [if_pos ha]
      have hb : b ≠ openingBracket := by
        intro hb
        apply h
        refine ⟨[], rest, ?_⟩
        rw [ha, hb]; rfl
      rw [if_neg hb, textLen_no_introducer h1]
      simp only [List.length_cons]; omega
    · rw [if_neg ha, textLen_no_introducer h2]
      simp only [List.length_cons]; omega

theorem strip_no_introducer {env : Env} {l : List Rune} (h : ¬ introducer <:+: l) {a b c d : Nat} {x : Bool}
    (hs : Strip env l a x b c d) : a = 0 ∧ x = true ∧ b = l.length ∧ c = l.length ∧ d = l.length := by
  have h0 := decodeSeq_no_introducer env h
  cases hs with
  | styled h1 _ _ => rw [h0] at h1; cases h1
  | plain hb =>
    cases hb with
    | other h1 _ => rw [h0] at h1; cases h1
    | overrun h1 => rw [h0] at h1; cases h1
    | stop h1 _ => rw [h0] at h1; cases h1
    | start h1 _ _ => cases h1
    | text _ ht =>
      rw [textLen_no_introducer h, List.drop_length] at ht
      rw [textLen_no_introducer h]
      cases ht with
      | done _ => simp
      | start h1 => cases h1
      | other h1 _ _ => cases h1
      | overrun h1 => cases h1
      | stop h1 _ _ => cases h1
      | stopOverrun h1 _ _ => cases h1

/-! ## Words -/

theorem decodeSeq_not_esc (env : Env) {l : List Rune} (h : ∀ r, l.head? = some r → r ≠ 0x1B) :
    decodeSeq env l = none := by
  match l, h with
  | [], _ => rfl
  | [_], _ => rfl
  | a :: b :: rest, h =>
    simp only [decodeSeq]
    exact if_neg (fun hab => h a rfl hab.1)

/-- Text without ESC is read up to the next introducer. -/
theorem textLen_plain : ∀ (w : List Rune) (rest : List Rune), (0x1B : Rune) ∉ w → textLen rest = 0 →
    textLen (w ++ rest) = w.length
  | [], rest, _, h => h
  | [r], [], _, _ => rfl
  | [r], y :: rest, hw, h => by
    simp only [List.cons_append, List.nil_append, textLen]
    rw [if_neg (fun e => hw (by rw [show r = 0x1B from e]; simp)), h]
    rfl
  | r :: y :: w, rest, hw, h => by
    have ih := textLen_plain (y :: w) rest (fun hm => hw (List.mem_cons_of_mem _ hm)) h
    simp only [List.cons_append] at ih ⊢
    simp only [textLen]
    rw [if_neg (fun e => hw (by rw [show r = 0x1B from e]; simp)), ih]
    simp only [List.length_cons]; omega

theorem textLen_seq (s : CtlSeq) (t : List Rune) : textLen (s.runes ++ t) = 0 := by
  rw [runes_eq]; simp [textLen]

/-- The parts of the result for a styled word. -/
theorem strip_word {env : Env} (hd : AsciiDigits env) {s p : CtlSeq} {t rest : List Rune}
    (hs : s.WellFormed env ∧ s.Short ∧ s.Starts) (hp : p.WellFormed env ∧ p.Short ∧ p.Stops)
    (ht : (0x1B : Rune) ∉ t) (hr : ∀ k, decodeSeq env rest ≠ some (rest.length + 1, k))
    {a b c d : Nat} {x : Bool} (h : Strip env (s.runes ++ (t ++ (p.runes ++ rest))) a x b c d) :
    a = s.runes.length ∧ b = t.length ∧ c = t.length + p.runes.length ∧ d = c := by
  have h1 := decodeSeq_complete hd hs.1 hs.2.1 (t ++ (p.runes ++ rest))
  rw [(kindOf_start s).mpr hs.2.2] at h1
  have h2 := decodeSeq_complete hd hp.1 hp.2.1 rest
  rw [(kindOf_stop p).mpr hp.2.2] at h2
  cases h with
  | plain h =>
    cases h with
    | other h3 _ => rw [h1] at h3; cases h3
    | overrun h3 => rw [h1] at h3; have := (Prod.mk.inj (Option.some.inj h3)).2; cases this
    | stop h3 _ => rw [h1] at h3; cases h3
    | start h3 _ _ => cases h3
    | text h3 _ => rw [h1] at h3; cases h3
  | styled h3 _ hb =>
    rw [h1] at h3
    cases h3
    refine ⟨rfl, ?_⟩
    rw [List.drop_left] at hb
    match t, ht, hb with
    | [], _, hb =>
      simp only [List.nil_append, List.length_nil, Nat.zero_add] at hb ⊢
      cases hb with
      | other h3 _ => rw [h2] at h3; cases h3
      | overrun h3 => rw [h2] at h3; have := (Prod.mk.inj (Option.some.inj h3)).2; cases this
      | stop h3 _ => rw [h2] at h3; cases h3; simp
      | start _ h3 _ => rw [h2] at h3; cases h3
      | text h3 _ => rw [h2] at h3; cases h3
    | r :: t, ht, hb =>
      have h0 : decodeSeq env (r :: t ++ (p.runes ++ rest)) = none :=
        decodeSeq_not_esc env (by
          intro y hy
          cases hy
          intro e
          apply ht; rw [e]; simp)
      cases hb with
      | other h3 _ => rw [h0] at h3; cases h3
      | overrun h3 => rw [h0] at h3; cases h3
      | stop h3 _ => rw [h0] at h3; cases h3
      | start _ h3 _ => rw [h0] at h3; cases h3
      | text _ htr =>
        rw [textLen_plain (r :: t) (p.runes ++ rest) ht (textLen_seq p rest), List.drop_left] at htr
        rw [textLen_plain (r :: t) (p.runes ++ rest) ht (textLen_seq p rest)]
        cases htr with
        | done h3 => rw [h2] at h3; cases h3
        | start h3 => rw [h2] at h3; cases h3
        | other h3 _ _ => rw [h2] at h3; cases h3
        | overrun h3 => rw [h2] at h3; have := (Prod.mk.inj (Option.some.inj h3)).2; cases this
        | stop h3 _ _ => rw [h2] at h3; cases h3; simp
        | stopOverrun h3 _ h4 =>
          rw [h2] at h3; cases h3
          rw [List.drop_left] at h4
          exact absurd h4 (hr _)

/-- The parts of the result for unstyled text. -/
theorem strip_gap {env : Env} {g rest : List Rune} (hg : (0x1B : Rune) ∉ g) (hne : g ≠ [])
    (hr : rest = [] ∨ ∃ n, decodeSeq env rest = some (n, .start)) (ht : textLen rest = 0)
    {a b c d : Nat} {x : Bool} (h : Strip env (g ++ rest) a x b c d) :
    a = 0 ∧ b = g.length ∧ c = b ∧ d = b := by
  have h0 : decodeSeq env (g ++ rest) = none :=
    decodeSeq_not_esc env (by
      intro y hy
      match g, hne, hg with
      | r :: g, _, hg =>
        cases hy
        intro e
        apply hg; rw [e]; simp)
  cases h with
  | styled h3 _ _ => rw [h0] at h3; cases h3
  | plain hb =>
    refine ⟨rfl, ?_⟩
    cases hb with
    | other h3 _ => rw [h0] at h3; cases h3
    | overrun h3 => rw [h0] at h3; cases h3
    | stop h3 _ => rw [h0] at h3; cases h3
    | start _ h3 _ => rw [h0] at h3; cases h3
    | text _ htr =>
      rw [textLen_plain g rest hg ht, List.drop_left] at htr
      rw [textLen_plain g rest hg ht]
      cases htr with
      | done h3 => simp
      | start h3 => simp
      | other h3 _ _ =>
        rcases hr with e | ⟨n, e⟩
        · rw [e] at h3; cases h3
        · rw [e] at h3; cases h3
      | overrun h3 =>
        rcases hr with e | ⟨n, e⟩
        · rw [e] at h3; cases h3
        · rw [e] at h3; cases h3
      | stop h3 _ _ =>
        rcases hr with e | ⟨n, e⟩
        · rw [e] at h3; cases h3
        · rw [e] at h3; cases h3
      | stopOverrun h3 _ _ =>
        rcases hr with e | ⟨n, e⟩
        · rw [e] at h3; cases h3
        · rw [e] at h3; cases h3

/-- Start sequence, text and stop sequence of a result. -/
def tokParts (mem : List Rune) (t : StrippedToken) : List Rune × List Rune × List Rune :=
  (optElems mem t.start, textElems mem t.text, optElems mem t.stop)

/-- The results for a text; none if it is empty. -/
def RunOf (env : Env) (mem : List Rune) (l : List Rune) (toks : List StrippedToken) : Prop :=
  (l = [] ∧ toks = []) ∨ (l ≠ [] ∧ ∃ v : View, v.elems mem = l ∧ v.Valid mem ∧ Run env mem v toks)

theorem run_inv {env : Env} {mem : List Rune} {v : View} {toks : List StrippedToken} (h : Run env mem v toks)
    (hv : v.Valid mem) :
    ∃ a x b c d toks', Strip env (v.elems mem) a x b c d ∧ b ≤ c ∧ toks = result v a x b c d :: toks' ∧
      a + d ≤ v.len ∧ RunOf env mem ((v.elems mem).drop (a + d)) toks' := by
  have hl := View.elems_length hv
  cases h with
  | last h1 h2 h3 h4 =>
    exact ⟨_, _, _, _, _, [], h1, h3, rfl, by omega, Or.inl ⟨List.drop_eq_nil_of_le (by omega), rfl⟩⟩
  | more h1 h2 h3 h4 h5 h6 =>
    refine ⟨_, _, _, _, _, _, h1, h3, rfl, by omega, Or.inr ⟨?_, _, elems_drop mem v _, ?_, h6⟩⟩
    · intro h
      have := congrArg List.length h
      rw [List.length_drop] at this
      simp at this; omega
    · unfold View.Valid at hv ⊢; simp only; omega

theorem runOf_inv {env : Env} {mem : List Rune} {l : List Rune} {toks : List StrippedToken}
    (h : RunOf env mem l toks) (hl : l ≠ []) :
    ∃ a x b c d tok toks', Strip env l a x b c d ∧ b ≤ c ∧ toks = tok :: toks' ∧
      (a + c ≤ l.length → tokParts mem tok = (l.take a, (l.drop a).take b, (l.drop (a + b)).take (c - b))) ∧
      RunOf env mem (l.drop (a + d)) toks' := by
  rcases h with ⟨h, _⟩ | ⟨_, v, e, hv, h⟩
  · exact absurd h hl
  · obtain ⟨a, x, b, c, d, toks', h1, h2, h3, h4, h5⟩ := run_inv h hv
    have hlen := View.elems_length hv
    rw [e] at h5
    refine ⟨a, x, b, c, d, _, toks', by rw [← e]; exact h1, h2, h3, ?_, h5⟩
    intro hf
    rw [← e, hlen] at hf
    unfold tokParts
    rw [result_start mem v a x b c d (by omega), result_text mem v h1 (by omega),
      result_stop mem v a x b c d h2 hf, e]

theorem runes_ne_nil (s : CtlSeq) : s.runes ≠ [] := by
  simp [CtlSeq.runes, introducer]

theorem runOf_word {env : Env} (hd : AsciiDigits env) {mem : List Rune} {s p : CtlSeq} {t rest : List Rune}
    {toks : List StrippedToken}
    (hs : s.WellFormed env ∧ s.Short ∧ s.Starts) (hp : p.WellFormed env ∧ p.Short ∧ p.Stops)
    (ht : (0x1B : Rune) ∉ t) (hr : ∀ k, decodeSeq env rest ≠ some (rest.length + 1, k))
    (h : RunOf env mem (s.runes ++ (t ++ (p.runes ++ rest))) toks) :
    ∃ tok toks', toks = tok :: toks' ∧ tokParts mem tok = (s.runes, t, p.runes) ∧ RunOf env mem rest toks' := by
  obtain ⟨a, x, b, c, d, tok, toks', h1, h2, h3, h4, h5⟩ := runOf_inv h (by simp [runes_ne_nil])
  obtain ⟨e1, e2, e3, e4⟩ := strip_word hd hs hp ht hr h1
  subst e4
  subst e1 e2 e3
  refine ⟨tok, toks', h3, ?_, ?_⟩
  · rw [h4 (by simp only [List.length_append]; omega)]
    rw [List.take_left, List.drop_left, List.take_left, ← List.drop_drop, List.drop_left, List.drop_left,
      Nat.add_sub_cancel_left, List.take_left]
  · rw [← List.drop_drop, List.drop_left, ← List.drop_drop, List.drop_left, List.drop_left] at h5
    exact h5

theorem runOf_gap {env : Env} {mem : List Rune} {g rest : List Rune} {toks : List StrippedToken}
    (hg : (0x1B : Rune) ∉ g) (hr : rest = [] ∨ ∃ n, decodeSeq env rest = some (n, .start))
    (ht : textLen rest = 0) (h : RunOf env mem (g ++ rest) toks) :
    ∃ toks', toks.map (tokParts mem) = plainPart g ++ toks'.map (tokParts mem) ∧ RunOf env mem rest toks' := by
  by_cases hne : g = []
  · subst hne
    exact ⟨toks, by simp [plainPart], h⟩
  · obtain ⟨a, x, b, c, d, tok, toks', h1, h2, h3, h4, h5⟩ := runOf_inv h (by simp [hne])
    obtain ⟨e1, e2, e3, e4⟩ := strip_gap hg hne hr ht h1
    subst e3 e4
    subst e1 e2
    refine ⟨toks', ?_, ?_⟩
    · rw [h3, List.map_cons, h4 (by simp only [List.length_append]; omega)]
      simp [plainPart, hne]
    · simpa using h5

theorem runOf_words {env : Env} (hd : AsciiDigits env) {mem : List Rune} {tail : List Rune}
    (htail : (0x1B : Rune) ∉ tail) :
    ∀ (ws : List Word) (toks : List StrippedToken), (∀ w ∈ ws, w.Good env) →
    RunOf env mem (ws.flatMap Word.runes ++ tail) toks →
    toks.map (tokParts mem) = ws.flatMap Word.parts ++ plainPart tail := by
  intro ws
  induction ws with
  | nil =>
    intro toks _ h
    have h' : RunOf env mem (tail ++ []) toks := by simpa using h
    obtain ⟨toks', h1, h2⟩ := runOf_gap htail (Or.inl rfl) rfl h'
    rcases h2 with ⟨_, e⟩ | ⟨e, _⟩
    · subst e; simpa using h1
    · exact absurd rfl e
  | cons w ws ih =>
    intro toks hw h
    have hgood := hw w (by simp)
    have hassoc : (w :: ws).flatMap Word.runes ++ tail =
        w.gap ++ (w.start.runes ++ (w.text ++ (w.stop.runes ++ (ws.flatMap Word.runes ++ tail)))) := by
      simp [Word.runes]
    rw [hassoc] at h
    have hstart := decodeSeq_complete hd hgood.start.1 hgood.start.2.1
      (w.text ++ (w.stop.runes ++ (ws.flatMap Word.runes ++ tail)))
    rw [(kindOf_start _).mpr hgood.start.2.2] at hstart
    obtain ⟨toks1, h1, h2⟩ := runOf_gap hgood.gap (Or.inr ⟨_, hstart⟩) (textLen_seq _ _) h
    have hrest : ∀ k, decodeSeq env (ws.flatMap Word.runes ++ tail) ≠
        some ((ws.flatMap Word.runes ++ tail).length + 1, k) := by
      intro k hk
      match ws, ih, hk, hw with
      | [], _, hk, _ =>
        have : decodeSeq env ([].flatMap Word.runes ++ tail) = none := by
          apply decodeSeq_not_esc env
          intro y hy e
          apply htail
          rw [← e]
          simp only [List.flatMap_nil, List.nil_append] at hy
          exact List.mem_of_head? hy
        rw [this] at hk; cases hk
      | w2 :: ws2, _, hk, hw =>
        have hg2 := hw w2 (by simp)
        cases hgap : w2.gap with
        | nil =>
          have h3 := decodeSeq_complete hd hg2.start.1 hg2.start.2.1
            (w2.text ++ (w2.stop.runes ++ (ws2.flatMap Word.runes ++ tail)))
          have e : (w2 :: ws2).flatMap Word.runes ++ tail =
              w2.start.runes ++ (w2.text ++ (w2.stop.runes ++ (ws2.flatMap Word.runes ++ tail))) := by
            simp [Word.runes, hgap]
          rw [e, h3] at hk
          have := (Prod.mk.inj (Option.some.inj hk)).1
          simp only [List.length_append] at this; omega
        | cons r g =>
          have : decodeSeq env ((w2 :: ws2).flatMap Word.runes ++ tail) = none := by
            apply decodeSeq_not_esc env
            intro y hy e
            apply hg2.gap
            simp only [List.flatMap_cons, Word.runes, hgap, List.cons_append, List.head?_cons] at hy
            cases hy
            rw [hgap, e]; simp
          rw [this] at hk; cases hk
    obtain ⟨tok, toks2, e1, e2, e3⟩ := runOf_word hd hgood.start hgood.stop hgood.text hrest h2
    rw [h1, e1, List.map_cons, e2, ih toks2 (fun w hm => hw w (by simp [hm])) e3]
    simp [Word.parts]

end Verif.Proofs.Ansi
