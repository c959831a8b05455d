import Verif.Proofs.AnsiClean

/-! # Texts that end within a parameter of three digits, exactly -/

namespace Verif.Proofs.Ansi
open Verif.Go Verif.Model Verif.Model.Ansi Verif.Spec.Ansi

/-! ## The results on a text that is overrun in the end -/

/-- A stop sequence is not read again after its last rune. -/
theorem overruns_key {env : Env} (hd : AsciiDigits env) {l : List Rune} {n : Nat} (h : decodeSeq env l = some (n, .stop))
    (ho : Overruns env (l.drop n)) (hs : ∃ m k, decodeSeq env (l.drop n) = some (m, k)) : Overruns env (l.drop (n - 1)) := by
  obtain ⟨s, t, hw, _, rfl, rfl, hk⟩ := decodeSeq_sound hd h (by simp)
  have hkey : s.key ≠ esc := word_key (Or.inr ((kindOf_stop s).mp hk.symm))
  have hne := runes_length s
  obtain ⟨m, k, hs⟩ := hs
  have hdrop : (s.runes ++ t).drop (s.runes.length - 1) = s.key :: t := by
    have e : s.runes = (introducer ++ s.first ++ moreRunes s.more) ++ [s.key] := by
      have := runes_eq s []
      simp only [List.append_nil] at this
      rw [this]; simp [introducer, esc, openingBracket]
    generalize introducer ++ s.first ++ moreRunes s.more = w at e
    rw [e, List.append_assoc, List.length_append, List.length_singleton, Nat.add_sub_cancel, List.drop_left]
    rfl
  rw [hdrop]
  rw [List.drop_left] at ho hs
  refine .text ?_ ?_
  · exact decodeSeq_not_esc env (by intro r hr; cases hr; exact hkey)
  · match t, hs with
    | a :: b :: rest, hs =>
      simp only [decodeSeq] at hs
      split at hs
      · rename_i hab
        have : textLen (s.key :: a :: b :: rest) = 1 := by simp [textLen, hkey, hab.1, hab.2]
        rw [this]; exact ho
      · cases hs
    | [], hs => cases hs
    | [_], hs => cases hs

/-- What is left of a text that is overrun in the end. -/
theorem trail_over {env : Env} (hd : AsciiDigits env) {l : List Rune} {t s d : Nat} (h : Trail env l t s d) (ho : Overruns env l) :
    d ≤ t + s ∧ (Overruns env (l.drop d) ∨ l.length < t + s) := by
  induction h with
  | done _ => exact ⟨Nat.le_refl _, .inl ho⟩
  | start _ => exact ⟨Nat.le_refl _, .inl ho⟩
  | other h1 h2 _ ih =>
    cases ho with
    | here h => rw [h1] at h; cases h; omega
    | seq h _ h4 =>
      rw [h1] at h; cases h
      obtain ⟨i1, i2⟩ := ih h4
      refine ⟨by omega, i2.imp (by rw [List.drop_drop]; exact fun h => h) (fun h => ?_)⟩
      rw [List.length_drop] at h; omega
    | text h _ => rw [h1] at h; cases h
  | overrun h => exact ⟨by omega, .inr (by omega)⟩
  | stop h1 h2 _ =>
    cases ho with
    | here h => rw [h1] at h; cases h
    | seq h _ h4 => rw [h1] at h; cases h; exact ⟨by omega, .inl h4⟩
    | text h _ => rw [h1] at h; cases h
  | stopOverrun h1 h2 h3 => exact ⟨by omega, .inl (overruns_key hd h1 (.here h3) ⟨_, _, h3⟩)⟩

theorem body_over {env : Env} (hd : AsciiDigits env) {s : Bool} {l : List Rune} {x : Bool} {b c d : Nat} (h : Body env s l x b c d)
    (ho : Overruns env l) : d ≤ c ∧ (Overruns env (l.drop d) ∨ l.length < c) := by
  cases h with
  | other h1 h2 =>
    cases ho with
    | here h => rw [h1] at h; cases h; omega
    | seq h _ h4 => rw [h1] at h; cases h; exact ⟨Nat.le_refl _, .inl h4⟩
    | text h _ => rw [h1] at h; cases h
  | overrun h => exact ⟨by omega, .inr (by omega)⟩
  | stop h1 h2 =>
    cases ho with
    | here h => rw [h1] at h; cases h
    | seq h _ h4 => rw [h1] at h; cases h; exact ⟨Nat.le_refl _, .inl h4⟩
    | text h _ => rw [h1] at h; cases h
  | start _ _ _ => exact ⟨Nat.le_refl _, .inl ho⟩
  | text h1 h2 =>
    cases ho with
    | here h => rw [h1] at h; cases h
    | seq h _ _ => rw [h1] at h; cases h
    | text _ h =>
      obtain ⟨i1, i2⟩ := trail_over hd h2 h
      refine ⟨by omega, i2.imp (by rw [List.drop_drop]; exact fun h => h) (fun h => ?_)⟩
      rw [List.length_drop] at h; omega

theorem strip_over {env : Env} (hd : AsciiDigits env) {l : List Rune} {a b c d : Nat} {x : Bool} (h : Strip env l a x b c d)
    (ho : Overruns env l) : d ≤ c ∧ (Overruns env (l.drop (a + d)) ∨ l.length < a + c) := by
  cases h with
  | plain h =>
    have := body_over hd h ho
    simpa using this
  | styled h1 h2 h3 =>
    cases ho with
    | here h => rw [h1] at h; cases h
    | seq h _ h4 =>
      rw [h1] at h; cases h
      obtain ⟨i1, i2⟩ := body_over hd h3 h4
      refine ⟨i1, i2.imp (by rw [List.drop_drop]; exact fun h => h) (fun h => ?_)⟩
      rw [List.length_drop] at h; omega
    | text h _ => rw [h1] at h; cases h

theorem overruns_nil (env : Env) : ¬ Overruns env [] := by
  intro h
  generalize hl : ([] : List Rune) = l at h
  induction h with
  | here h => subst hl; cases h
  | seq h _ _ _ => subst hl; cases h
  | text _ _ ih => subst hl; exact ih rfl

theorem tokRunes_length {env : Env} (mem : List Rune) (v : View) {a : Nat} {x : Bool} {b c d : Nat}
    (hs : Strip env (v.elems mem) a x b c d) (hb : b ≤ c) (h : v.off + a + c ≤ mem.length) :
    (tokRunes mem (result v a x b c d)).length = a + c := by
  have hlen : ∀ o n, o + n ≤ mem.length → (optElems mem (optView o n)).length = n := by
    intro o n h
    rw [optElems_optView]; exact View.elems_length h
  have ht : (textElems mem (result v a x b c d).text).length = b := by
    cases x with
    | false => rw [strip_nil_text hs]; rfl
    | true => exact View.elems_length (v := ⟨v.off + a, b⟩) (by unfold View.Valid; simp only; omega)
  unfold tokRunes
  rw [List.length_append, List.length_append, ht]
  simp only [result]
  rw [hlen _ _ (by omega), hlen _ _ (by omega)]; omega

/-- On a text that is overrun in the end, the results need a rune from behind the text. -/
theorem run_over {env : Env} (hd : AsciiDigits env) {mem : List Rune} {v : View} {toks : List StrippedToken}
    (h : Run env mem v toks) (hv : v.Valid mem) (ho : Overruns env (v.elems mem)) :
    v.off + v.len < mem.length ∧ v.len < (toks.flatMap (tokRunes mem)).length := by
  induction h with
  | @last v a x b c d h1 h2 h3 h4 =>
    have hl := View.elems_length hv
    rw [List.flatMap_cons, List.flatMap_nil, List.append_nil, tokRunes_length mem v h1 h3 h2]
    obtain ⟨i1, i2⟩ := strip_over hd h1 ho
    rcases i2 with i | i
    · rw [List.drop_eq_nil_of_le (by omega)] at i
      exact absurd i (overruns_nil env)
    · omega
  | @more v a x b c d toks h1 h2 h3 h4 h5 hr ih =>
    have hl := View.elems_length hv
    rw [List.flatMap_cons, List.length_append, tokRunes_length mem v h1 h3 h2]
    obtain ⟨i1, i2⟩ := strip_over hd h1 ho
    rcases i2 with i | i
    · have := ih (by unfold View.Valid at hv ⊢; simp only; omega) (by rw [elems_drop]; exact i)
      simp only at this; omega
    · omega

/-! ## The scan and the reading -/

theorem seqScan_short (env : Env) : ∀ (ds : List Rune) (k : Nat) (first zero : Bool) (n : Nat),
    (∀ r ∈ ds, env.isDigit r = true) → k + ds.length ≤ 2 →
    ∃ zero', ∀ rest, seqScan env k first zero n (ds ++ rest) =
      seqScan env (k + ds.length) first zero' (n + ds.length) rest
  | [], k, first, zero, n, _, _ => ⟨zero, fun _ => rfl⟩
  | r :: ds, k, first, zero, n, h, hk => by
    simp only [List.length_cons] at hk
    obtain ⟨z, hz⟩ := seqScan_short env ds (k + 1) first (if first && r != 0x30 then false else zero) (n + 1)
      (fun x hx => h x (List.mem_cons_of_mem _ hx)) (by omega)
    refine ⟨z, fun rest => ?_⟩
    rw [List.cons_append, seqScan, if_pos (h r (List.mem_cons_self ..)), if_neg (by omega), hz]
    simp only [List.length_cons]
    rw [show k + 1 + ds.length = k + (ds.length + 1) by omega, show n + 1 + ds.length = n + (ds.length + 1) by omega]

theorem digit_not_sep {env : Env} (hd : AsciiDigits env) {x : Rune} (h : IsSep x) : env.isDigit x = false := by
  cases hx : env.isDigit x with
  | false => rfl
  | true =>
    rcases h with rfl | rfl <;> exact absurd ((hd _ (by decide) (by decide)).mp hx) (by decide)

/-- The scan of an opened sequence. -/
theorem decodeSeq_opened {env : Env} (hd : AsciiDigits env) {o : List Rune} (ho : Opened env o) :
    ∃ first zero, ∀ rest, decodeSeq env (o ++ rest) = some (seqScan env 0 first zero o.length rest) := by
  induction ho with
  | first => exact ⟨true, true, fun rest => by simp [introducer, decodeSeq, esc, openingBracket]⟩
  | @next o ds x ho hds hlen hx ih =>
    obtain ⟨first, zero, ih⟩ := ih
    obtain ⟨z, hz⟩ := seqScan_short env ds 0 first zero o.length hds (by omega)
    refine ⟨false, z, fun rest => ?_⟩
    rw [List.append_assoc, List.append_assoc, ih, hz]
    simp only [List.singleton_append, seqScan, digit_not_sep hd hx, Bool.false_eq_true, if_false]
    rw [if_pos (by simpa [IsSep] using hx)]
    simp [Nat.add_assoc]

theorem keyKind_digit {env : Env} (hd : AsciiDigits env) {r : Rune} (h : env.isDigit r = true) (z : Bool) :
    keyKind r z = .other := by
  have hne : ∀ x : Rune, 0x3A ≤ x → x < 128 → (r == x) = false := by
    intro x h1 h2
    apply beq_false_of_ne
    intro e
    subst e
    have := (hd r (by omega) h2).mp h
    omega
  simp [keyKind, hne 0x73 (by decide) (by decide), hne 0x68 (by decide) (by decide), hne 0x75 (by decide) (by decide),
    hne 0x6C (by decide) (by decide), hne 0x6D (by decide) (by decide)]

/-- A sequence with short parameters. -/
theorem decodeSeq_short {env : Env} (hd : AsciiDigits env) {o ds : List Rune} {key : Rune} (ho : Opened env o)
    (hds : ∀ r ∈ ds, env.isDigit r = true) (hlen : ds.length ≤ 2) (hk : env.isDigit key = false)
    (hs : ¬ IsSep key) (l : List Rune) :
    ∃ k, decodeSeq env (o ++ ds ++ key :: l) = some ((o ++ ds).length + 1, k) := by
  obtain ⟨first, zero, h⟩ := decodeSeq_opened hd ho
  obtain ⟨z, hz⟩ := seqScan_short env ds 0 first zero o.length hds (by omega)
  refine ⟨keyKind key z, ?_⟩
  rw [List.append_assoc, h, hz]
  simp only [seqScan, hk, Bool.false_eq_true, if_false]
  rw [if_neg (by simpa [IsSep] using hs)]
  simp

/-- A parameter of three digits. -/
theorem decodeSeq_long {env : Env} (hd : AsciiDigits env) {h : List Rune} (hh : LongHead env h) (l : List Rune) :
    decodeSeq env (h ++ l) = some (h.length + 1, .other) := by
  obtain ⟨o, d1, d2, d3, ho, h1, h2, h3, rfl⟩ := hh
  obtain ⟨first, zero, h⟩ := decodeSeq_opened hd ho
  rw [List.append_assoc, h]
  simp only [List.cons_append, List.nil_append, seqScan, h1, h2, h3, if_true]
  rw [if_neg (by omega), if_neg (by omega), if_pos (by omega), keyKind_digit hd h3]
  simp

theorem decodeSeq_text {env : Env} {l : List Rune} {p : Nat × Kind} (h : decodeSeq env l = some p) : textLen l = 0 := by
  match l, h with
  | [], h => cases h
  | [_], h => cases h
  | a :: b :: rest, h =>
    simp only [decodeSeq] at h
    split at h
    · rename_i hab; simp [textLen, hab.1, hab.2]
    · cases h

/-- What is overrun from the start of its text on. -/
theorem overruns_text {env : Env} {l : List Rune} (h : Overruns env l) : Overruns env (l.drop (textLen l)) := by
  cases hs : decodeSeq env l with
  | some p => rw [decodeSeq_text hs]; exact h
  | none =>
    cases h with
    | here h => rw [hs] at h; cases h
    | seq h _ _ => rw [hs] at h; cases h
    | text _ h => exact h

theorem overruns_rune {env : Env} {r : Rune} (hr : r ≠ 0x1B) {l : List Rune} (h : Overruns env l) :
    Overruns env (r :: l) := by
  refine .text (decodeSeq_not_esc env (by intro x hx; cases hx; exact hr)) ?_
  match l, h with
  | [], h => exact absurd h (overruns_nil env)
  | b :: rest, h =>
    have : textLen (r :: b :: rest) = 1 + textLen (b :: rest) := by
      rw [textLen, if_neg (show ¬ r = esc from hr)]
    rw [this, Nat.add_comm, List.drop_succ_cons]
    exact overruns_text h

theorem overruns_pair {env : Env} {r : Rune} (hr : r ≠ 0x5B) {l : List Rune} (h : Overruns env l) :
    Overruns env (0x1B :: r :: l) := by
  refine .text (by simp [decodeSeq, openingBracket, hr]) ?_
  have : textLen (0x1B :: r :: l) = 2 + textLen l := by
    rw [textLen, if_pos (show (0x1B : Rune) = esc from rfl), if_neg (show ¬ r = openingBracket from hr)]
  rw [this, Nat.add_comm, List.drop_succ_cons, List.drop_succ_cons]
  exact overruns_text h

theorem overruns_of_readTo {env : Env} (hd : AsciiDigits env) {l h : List Rune} (hr : ReadTo env l h) (hh : LongHead env h) :
    Overruns env l := by
  induction hr with
  | here =>
    have := decodeSeq_long hd hh []
    rw [List.append_nil] at this
    exact .here this
  | rune hr _ ih => exact overruns_rune hr (ih hh)
  | pair hr _ ih => exact overruns_pair hr (ih hh)
  | @seq o ds key l l' ho hds hlen hk hs _ ih =>
    obtain ⟨k, hk⟩ := decodeSeq_short hd ho hds hlen hk hs l
    refine .seq hk (by simp; omega) ?_
    have : (o ++ ds ++ key :: l).drop ((o ++ ds).length + 1) = l := by
      rw [List.drop_append]; simp
    rw [this]; exact ih hh
  | @long h' r l l' hl _ ih =>
    refine .seq (decodeSeq_long hd hl (r :: l)) (by simp) ?_
    have : (h' ++ r :: l).drop (h'.length + 1) = l := by
      rw [List.drop_append]; simp
    rw [this]; exact ih hh

/-- The three ends of the scan: at the end of the text, after a key code, after a parameter of three
digits. -/
theorem seqScan_cases {env : Env} : ∀ (rest o ds : List Rune) (first zero : Bool) (n : Nat),
    Opened env o → (∀ r ∈ ds, env.isDigit r = true) → ds.length ≤ 2 →
    (seqScan env ds.length first zero n rest).1 = n + rest.length ∨
    (∃ o' ds' key l, Opened env o' ∧ (∀ r ∈ ds', env.isDigit r = true) ∧ ds'.length ≤ 2 ∧ env.isDigit key = false ∧
      ¬ IsSep key ∧ o ++ ds ++ rest = o' ++ ds' ++ key :: l ∧
      (seqScan env ds.length first zero n rest).1 + (o ++ ds).length = n + (o' ++ ds').length + 1) ∨
    (∃ h l, LongHead env h ∧ o ++ ds ++ rest = h ++ l ∧
      (seqScan env ds.length first zero n rest).1 + (o ++ ds).length = n + h.length + 1)
  | [], o, ds, first, zero, n, _, _, _ => by left; simp [seqScan]
  | r :: rest, o, ds, first, zero, n, ho, hds, hlen => by
    cases hdig : env.isDigit r with
    | true =>
      by_cases hk : ds.length ≥ 2
      · obtain ⟨d1, d2, rfl⟩ : ∃ d1 d2, ds = [d1, d2] := by
          match ds, hlen, hk with
          | [d1, d2], _, _ => exact ⟨d1, d2, rfl⟩
        refine .inr (.inr ⟨o ++ [d1, d2, r], rest, ⟨o, d1, d2, r, ho, hds _ (by simp), hds _ (by simp), hdig, rfl⟩,
          by simp, ?_⟩)
        simp only [seqScan, hdig, if_true, List.length_cons, List.length_nil]
        rw [if_pos (by omega)]
        simp; omega
      · have e : seqScan env ds.length first zero n (r :: rest) =
            seqScan env (ds ++ [r]).length first (if first && r != 0x30 then false else zero) (n + 1) rest := by
          simp only [seqScan, hdig, if_true, List.length_append, List.length_singleton]
          rw [if_neg hk]
        rw [e]
        have := seqScan_cases rest o (ds ++ [r]) first (if first && r != 0x30 then false else zero) (n + 1) ho
          (by intro x hx; rcases List.mem_append.mp hx with h | h
              · exact hds x h
              · rw [List.mem_singleton.mp h]; exact hdig) (by simp; omega)
        rcases this with h | ⟨o', ds', key, l, h1, h2, h3, h4, h5, h6, h7⟩ | ⟨h', l, h1, h2, h3⟩
        · left; rw [h]; simp; omega
        · refine .inr (.inl ⟨o', ds', key, l, h1, h2, h3, h4, h5, by rw [← h6]; simp, ?_⟩)
          simp only [List.length_append, List.length_cons, List.length_nil] at h7 ⊢; omega
        · refine .inr (.inr ⟨h', l, h1, by rw [← h2]; simp, ?_⟩)
          simp only [List.length_append, List.length_cons, List.length_nil] at h3 ⊢; omega
    | false =>
      by_cases hsep : IsSep r
      · have e : seqScan env ds.length first zero n (r :: rest) =
            seqScan env ([] : List Rune).length false zero (n + 1) rest := by
          simp only [seqScan, hdig, Bool.false_eq_true, if_false, List.length_nil]
          rw [if_pos (by simpa [IsSep] using hsep)]
        rw [e]
        have := seqScan_cases rest (o ++ ds ++ [r]) [] false zero (n + 1) (.next ho hds hlen hsep) (by simp) (by simp)
        rcases this with h | ⟨o', ds', key, l, h1, h2, h3, h4, h5, h6, h7⟩ | ⟨h', l, h1, h2, h3⟩
        · left; rw [h]; simp; omega
        · refine .inr (.inl ⟨o', ds', key, l, h1, h2, h3, h4, h5, by rw [← h6]; simp, ?_⟩)
          simp only [List.length_append, List.length_cons, List.length_nil] at h7 ⊢; omega
        · refine .inr (.inr ⟨h', l, h1, by rw [← h2]; simp, ?_⟩)
          simp only [List.length_append, List.length_cons, List.length_nil] at h3 ⊢; omega
      · refine .inr (.inl ⟨o, ds, r, rest, ho, hds, hlen, hdig, hsep, rfl, ?_⟩)
        simp only [seqScan, hdig, Bool.false_eq_true, if_false]
        rw [if_neg (by simpa [IsSep] using hsep)]
        simp only; omega

theorem decodeSeq_cases {env : Env} {l : List Rune} {n : Nat} {k : Kind} (h : decodeSeq env l = some (n, k)) :
    n = l.length ∨
    (∃ o ds key t, Opened env o ∧ (∀ r ∈ ds, env.isDigit r = true) ∧ ds.length ≤ 2 ∧ env.isDigit key = false ∧
      ¬ IsSep key ∧ l = o ++ ds ++ key :: t ∧ n = (o ++ ds).length + 1) ∨
    (∃ w t, LongHead env w ∧ l = w ++ t ∧ n = w.length + 1) := by
  match l, h with
  | [], h => cases h
  | [_], h => cases h
  | a :: b :: rest, h =>
    simp only [decodeSeq] at h
    split at h
    · rename_i hab
      have hs := Option.some.inj h
      have hi : a :: b :: rest = introducer ++ [] ++ rest := by rw [hab.1, hab.2]; rfl
      have := seqScan_cases (env := env) rest introducer [] true true 2 .first (by simp) (by simp)
      rw [List.length_nil, hs, ← hi] at this
      simp only [introducer, List.append_nil, List.length_cons, List.length_nil] at this
      rcases this with h | ⟨o', ds', key, l, h1, h2, h3, h4, h5, h6, h7⟩ | ⟨h', l, h1, h2, h3⟩
      · left; simp only [List.length_cons]; omega
      · exact .inr (.inl ⟨o', ds', key, l, h1, h2, h3, h4, h5, h6, by omega⟩)
      · exact .inr (.inr ⟨h', l, h1, h2, by omega⟩)
    · cases h

/-- The text before a sequence is read rune by rune. -/
theorem readTo_text {env : Env} : ∀ (l : List Rune) {t : List Rune}, t ≠ [] → ReadTo env (l.drop (textLen l)) t →
    ReadTo env l t
  | [], _, _, h => h
  | [a], t, ht, h => by
    simp only [textLen, List.drop_succ_cons, List.drop_nil] at h
    generalize hl : ([] : List Rune) = l at h
    cases h with
    | here => exact absurd hl.symm ht
    | rune => cases hl
    | pair => cases hl
    | seq h => cases h <;> simp [introducer] at hl
    | long h => simp at hl
  | a :: b :: rest, t, ht, h => by
    by_cases ha : a = esc
    · by_cases hb : b = openingBracket
      · simpa [textLen, ha, hb] using h
      · rw [textLen, if_pos ha, if_neg hb, Nat.add_comm, List.drop_succ_cons, List.drop_succ_cons] at h
        rw [ha]
        exact .pair hb (readTo_text rest ht h)
    · rw [textLen, if_neg ha, Nat.add_comm, List.drop_succ_cons] at h
      exact .rune ha (readTo_text (b :: rest) ht h)

theorem cut_of_overruns {env : Env} {l : List Rune} (h : Overruns env l) : EndsLong env l := by
  induction h with
  | @here l h =>
    rcases decodeSeq_cases h with h | ⟨o, ds, key, t, h1, h2, h3, h4, h5, h6, h7⟩ | ⟨w, t, h1, h2, h3⟩
    · omega
    · rw [h6] at h7; simp at h7
    · have : t = [] := by
        rw [h2] at h3; simp at h3; exact h3
      subst this
      rw [List.append_nil] at h2
      exact ⟨l, by rw [h2]; exact h1, .here⟩
  | @seq l n k h hn ho ih =>
    obtain ⟨w, hw, hr⟩ := ih
    rcases decodeSeq_cases h with h | ⟨o, ds, key, t, h1, h2, h3, h4, h5, h6, h7⟩ | ⟨u, t, h1, h2, h3⟩
    · rw [h, List.drop_length] at ho; exact absurd ho (overruns_nil env)
    · refine ⟨w, hw, ?_⟩
      have : l.drop n = t := by rw [h6, h7, List.drop_append]; simp
      rw [this] at hr
      rw [h6]; exact .seq h1 h2 h3 h4 h5 hr
    · match t with
      | [] => rw [h2] at hn; simp at hn; omega
      | r :: t =>
        have : l.drop n = t := by rw [h2, h3, List.drop_append]; simp
        rw [this] at hr
        exact ⟨w, hw, by rw [h2]; exact .long h1 hr⟩
  | text _ _ ih =>
    obtain ⟨w, hw, hr⟩ := ih
    have : w ≠ [] := by
      obtain ⟨o, _, _, _, _, _, _, _, rfl⟩ := hw
      simp
    exact ⟨w, hw, readTo_text _ this hr⟩

theorem overruns_iff {env : Env} (hd : AsciiDigits env) {l : List Rune} : Overruns env l ↔ EndsLong env l :=
  ⟨cut_of_overruns, fun ⟨_, h1, h2⟩ => overruns_of_readTo hd h2 h1⟩

theorem cut_cutShort {env : Env} (hd : AsciiDigits env) {l : List Rune} (h : EndsLong env l) : CutShort env l :=
  overruns_cutShort hd ((overruns_iff hd).mpr h)

/-! ## Texts that are not cut -/

theorem trail_whole {env : Env} {l : List Rune} {t s d : Nat} (h : Trail env l t s d) (hc : ¬ Overruns env l) :
    t + s = d := by
  induction h with
  | done _ => rfl
  | start _ => rfl
  | other h1 h2 _ ih => have := ih (fun h => hc (.seq h1 h2 h)); omega
  | overrun h => exact absurd (.here h) hc
  | stop _ _ _ => omega
  | stopOverrun h1 h2 h => exact absurd (.seq h1 h2 (.here h)) hc

theorem strip_whole {env : Env} {l : List Rune} {a b c d : Nat} {x : Bool} (h : Strip env l a x b c d)
    (hc : ¬ Overruns env l) : c = d := by
  have hb : ∀ {s : Bool} {l : List Rune} {x : Bool} {b c d : Nat}, Body env s l x b c d → ¬ Overruns env l → c = d := by
    intro s l x b c d h hc
    cases h with
    | other _ _ => rfl
    | overrun h => exact absurd (.here h) hc
    | stop _ _ => rfl
    | start _ _ _ => rfl
    | text h1 h => have := trail_whole h (fun h => hc (.text h1 h)); omega
  cases h with
  | plain h => exact hb h hc
  | styled h1 h2 h => exact hb h (fun h => hc (.seq h1 h2 h))

theorem run_whole {env : Env} {mem : List Rune} {v : View} {toks : List StrippedToken}
    (h : Run env mem v toks) (hv : v.Valid mem) (hc : ¬ Overruns env (v.elems mem)) :
    toks.flatMap (tokRunes mem) = v.elems mem := by
  induction h with
  | last h1 h2 h3 h4 =>
    have := strip_whole h1 hc
    subst this
    simp only [List.flatMap_cons, List.flatMap_nil, List.append_nil]
    rw [result_runes mem _ h1 h3 (by omega), h4]
    exact List.take_of_length_le (by rw [View.elems_length hv]; exact Nat.le_refl _)
  | more h1 h2 h3 h4 h5 _ ih =>
    have := strip_whole h1 hc
    subst this
    simp only [List.flatMap_cons]
    rw [result_runes mem _ h1 h3 (by omega), ih (by unfold View.Valid at hv ⊢; simp only; omega)
      (by rw [elems_drop]; exact fun h => hc (strip_over_back h1 h)), elems_drop, List.take_append_drop]

/-- A sequence with short parameters takes nothing of what follows. -/
theorem overruns_seq {env : Env} (hd : AsciiDigits env) {s : CtlSeq} (hw : s.WellFormed env) (hs : s.Short)
    {l : List Rune} (h : Overruns env (s.runes ++ l)) : Overruns env l := by
  have hd := decodeSeq_complete hd hw hs l
  cases h with
  | here h =>
    rw [hd] at h
    have := congrArg (fun p => (p.map Prod.fst).getD 0) h
    simp at this; omega
  | seq h _ h2 =>
    rw [hd] at h
    have := congrArg (fun p => (p.map Prod.fst).getD 0) h
    simp only [Option.map_some, Option.getD_some] at this
    rw [← this, List.drop_left] at h2; exact h2
  | text h _ => rw [hd] at h; cases h

/-- Nor does a text without ESC before a sequence. -/
theorem overruns_plain {env : Env} {t l : List Rune} (ht : (0x1B : Rune) ∉ t) (hl : textLen l = 0)
    (h : Overruns env (t ++ l)) : Overruns env l := by
  have := overruns_text h
  rw [textLen_plain t l ht hl] at this
  simpa using this

end Verif.Proofs.Ansi
