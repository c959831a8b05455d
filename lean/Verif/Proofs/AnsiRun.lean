import Verif.Proofs.AnsiToken

/-! # StripToken in terms of the scan -/

namespace Verif.Proofs.Ansi
open Verif.Go Verif.Model Verif.Model.Ansi Verif.Spec.Ansi

/-! ## Facts on the parts of a result -/

theorem trail_bounds {env : Env} {l : List Rune} {t s d : Nat} (h : Trail env l t s d) : d ≤ l.length := by
  induction h with
  | done _ => exact Nat.zero_le _
  | start _ => exact Nat.zero_le _
  | other h1 h2 _ ih => rw [List.length_drop] at ih; omega
  | overrun _ => exact Nat.le_refl _
  | stop _ h _ => exact h
  | stopOverrun _ h _ => omega

theorem body_bounds {env : Env} {s : Bool} {l : List Rune} {x : Bool} {b c d : Nat}
    (h : Body env s l x b c d) : d ≤ l.length := by
  cases h with
  | other _ h => exact h
  | overrun _ => exact Nat.le_refl _
  | stop _ h => exact h
  | start _ _ _ => exact Nat.zero_le _
  | text _ h =>
    have := trail_bounds h
    have h2 := textLen_le l
    rw [List.length_drop] at this; omega

theorem strip_bounds {env : Env} {l : List Rune} {a b c d : Nat} {x : Bool}
    (h : Strip env l a x b c d) : a + d ≤ l.length := by
  cases h with
  | plain h => have := body_bounds h; omega
  | styled _ h2 h3 =>
    have := body_bounds h3
    rw [List.length_drop] at this; omega

theorem textLen_pos {env : Env} {l : List Rune} (h : decodeSeq env l = none) (hl : l ≠ []) : 0 < textLen l := by
  match l, h, hl with
  | [_], _, _ => simp [textLen]
  | a :: b :: rest, h, _ =>
    simp only [decodeSeq] at h
    simp only [textLen]
    by_cases ha : a = esc
    · rw [if_pos ha]
      by_cases hb : b = openingBracket
      · rw [if_pos ⟨ha, hb⟩] at h; cases h
      · rw [if_neg hb]; omega
    · rw [if_neg ha]; omega

theorem strip_progress {env : Env} {l : List Rune} {a b c d : Nat} {x : Bool}
    (h : Strip env l a x b c d) (hl : l ≠ []) : 0 < a + d := by
  cases h with
  | styled h _ _ => have := decodeSeq_bounds h; omega
  | plain h =>
    cases h with
    | other h _ => have := decodeSeq_bounds h; omega
    | overrun h => have := decodeSeq_bounds h; omega
    | stop h _ => have := decodeSeq_bounds h; omega
    | start h _ _ => cases h
    | text h _ => have := textLen_pos h hl; omega

/-! ## The overrun -/

theorem seqScan_overrun_params (env : Env) : ∀ (rest : List Rune) (k : Nat) (first zero : Bool) (n : Nat),
    (seqScan env k first zero n rest).1 = n + rest.length + 1 →
    ∀ r ∈ rest, env.isDigit r = true ∨ IsSep r
  | [], _, _, _, _, _ => by simp
  | r :: rest, k, first, zero, n, h => by
    simp only [seqScan, List.length_cons] at h
    cases hdig : env.isDigit r with
    | true =>
      simp only [hdig, if_true] at h
      by_cases hk : k ≥ 2
      · rw [if_pos hk] at h
        have : rest = [] := List.eq_nil_of_length_eq_zero (by simp only at h; omega)
        subst this
        intro y hy
        rw [List.mem_singleton.mp hy]; exact Or.inl hdig
      · rw [if_neg hk] at h
        have := seqScan_overrun_params env rest (k + 1) first _ (n + 1) (by rw [h]; omega)
        intro y hy
        rcases List.mem_cons.mp hy with e | e
        · rw [e]; exact Or.inl hdig
        · exact this y e
    | false =>
      simp only [hdig, Bool.false_eq_true, if_false] at h
      cases hsep : (r == 0x3B || r == 0x3A) with
      | true =>
        simp only [hsep, if_true] at h
        have := seqScan_overrun_params env rest 0 false zero (n + 1) (by rw [h]; omega)
        intro y hy
        rcases List.mem_cons.mp hy with e | e
        · rw [e]; exact Or.inr (by simpa [IsSep] using hsep)
        · exact this y e
      | false =>
        simp [hsep] at h

theorem overrun_cutShort {env : Env} (hd : AsciiDigits env) {l : List Rune} {k : Kind}
    (h : decodeSeq env l = some (l.length + 1, k)) : CutShort env l := by
  match l, h with
  | [], h => cases h
  | [_], h => cases h
  | a :: b :: rest, h =>
    simp only [decodeSeq] at h
    split at h
    · rename_i hab
      have hs := Option.some.inj h
      have hs1 : (seqScan env 0 true true 2 rest).1 = 2 + rest.length + 1 := by
        rw [hs]; simp only [List.length_cons]; omega
      have := seqScan_overrun env hd rest [] [] b true true 2 (Or.inl hab.2) (by simp) (by simp) hs1
      refine ⟨[], rest, ?_, seqScan_overrun_params env rest 0 true true 2 hs1, ?_⟩
      · rw [hab.1, hab.2]; rfl
      · have h2 := this.1
        rw [hab.2] at h2
        exact h2
    · cases h

theorem cutShort_of_drop {env : Env} {l : List Rune} {q : Nat} (h : CutShort env (l.drop q)) : CutShort env l := by
  obtain ⟨pre, body, h1, h2, h3⟩ := h
  refine ⟨l.take q ++ pre, body, ?_, h2, h3⟩
  rw [List.append_assoc, List.append_assoc, ← List.append_assoc pre, ← h1, List.take_append_drop]

theorem overruns_cutShort {env : Env} (hd : AsciiDigits env) {l : List Rune} (h : Overruns env l) :
    CutShort env l := by
  induction h with
  | here h => exact overrun_cutShort hd h
  | seq _ _ _ ih => exact cutShort_of_drop ih
  | text _ _ ih => exact cutShort_of_drop ih

theorem trail_tight {env : Env} (hd : AsciiDigits env) {l : List Rune} {t s d : Nat} (h : Trail env l t s d)
    (hc : ¬ CutShort env l) : t + s = d := by
  induction h with
  | done _ => rfl
  | start _ => rfl
  | other h1 h2 _ ih => have := ih (fun h => hc (cutShort_of_drop h)); omega
  | overrun h => exact absurd (overrun_cutShort hd h) hc
  | stop _ _ _ => omega
  | stopOverrun _ _ h => exact absurd (cutShort_of_drop (overrun_cutShort hd h)) hc

theorem body_tight {env : Env} (hd : AsciiDigits env) {s : Bool} {l : List Rune} {x : Bool} {b c d : Nat}
    (h : Body env s l x b c d) (hc : ¬ CutShort env l) : c = d := by
  cases h with
  | other _ _ => rfl
  | overrun h => exact absurd (overrun_cutShort hd h) hc
  | stop _ _ => rfl
  | start _ _ _ => rfl
  | text _ h => have := trail_tight hd h (fun h => hc (cutShort_of_drop h)); omega

theorem strip_tight {env : Env} (hd : AsciiDigits env) {l : List Rune} {a b c d : Nat} {x : Bool}
    (h : Strip env l a x b c d) (hc : ¬ CutShort env l) : c = d := by
  cases h with
  | plain h => exact body_tight hd h hc
  | styled _ _ h => exact body_tight hd h (fun h => hc (cutShort_of_drop h))

/-! ## StripToken -/

/-- The results of StripToken. -/
inductive Run (env : Env) (mem : List Rune) : View → List StrippedToken → Prop where
  | last {v a x b c d} : Strip env (v.elems mem) a x b c d → v.off + a + c ≤ mem.length → b ≤ c →
      a + d = v.len → Run env mem v [result v a x b c d]
  | more {v a x b c d toks} : Strip env (v.elems mem) a x b c d → v.off + a + c ≤ mem.length → b ≤ c →
      0 < a + d → a + d < v.len → Run env mem ⟨v.off + (a + d), v.len - (a + d)⟩ toks →
      Run env mem v (result v a x b c d :: toks)

theorem elems_drop (mem : List Rune) (v : View) (q : Nat) :
    View.elems mem ⟨v.off + q, v.len - q⟩ = (v.elems mem).drop q := by
  simp only [View.elems]
  rw [List.drop_take, List.drop_drop]

/-- What follows the parts of a result belongs to the text. -/
theorem trail_over_back {env : Env} {l : List Rune} {t s d : Nat} (h : Trail env l t s d) (ho : Overruns env (l.drop d)) :
    Overruns env l := by
  induction h with
  | done _ => exact ho
  | start _ => exact ho
  | other h1 h2 _ ih => exact .seq h1 h2 (ih (by rw [List.drop_drop]; exact ho))
  | overrun h => exact .here h
  | stop h1 h2 _ => exact .seq h1 h2 ho
  | stopOverrun h1 h2 h3 => exact .seq h1 h2 (.here h3)

theorem strip_over_back {env : Env} {l : List Rune} {a b c d : Nat} {x : Bool} (h : Strip env l a x b c d)
    (ho : Overruns env (l.drop (a + d))) : Overruns env l := by
  have hb : ∀ {s : Bool} {l : List Rune} {x : Bool} {b c d : Nat}, Body env s l x b c d →
      Overruns env (l.drop d) → Overruns env l := by
    intro s l x b c d h ho
    cases h with
    | other h1 h2 => exact .seq h1 h2 ho
    | overrun h => exact .here h
    | stop h1 h2 => exact .seq h1 h2 ho
    | start _ _ _ => exact ho
    | text h1 h2 => exact .text h1 (trail_over_back h2 (by rw [List.drop_drop]; exact ho))
  cases h with
  | plain h => exact hb h (by simpa using ho)
  | styled h1 h2 h3 => exact .seq h1 h2 (hb h3 (by rw [List.drop_drop]; exact ho))

theorem stripTokenLoop_spec (env : Env) (hd : AsciiDigits env) (mem : List Rune) :
    ∀ (fuel : Nat) (v : View), v.Valid mem → (v.len : Int) < 2 ^ 63 → v.len < fuel →
    (stripTokenLoop env fuel mem v = .error .slice ∧ mem.length = v.off + v.len ∧ Overruns env (v.elems mem)) ∨
    ∃ toks, Run env mem v toks ∧ stripTokenLoop env fuel mem v = .ok (toks, mem) := by
  intro fuel
  induction fuel with
  | zero => intro v _ _ h; omega
  | succ fuel ih =>
    intro v hv hlen hf
    have hl := View.elems_length hv
    rw [stripTokenLoop]
    rcases strip_spec env hd mem v hv hlen with ⟨h1, h2⟩ | ⟨a, x, b, c, d, h1, h2, h3, h4⟩
    · rw [h1]; exact Or.inl ⟨rfl, h2⟩
    · have hb := strip_bounds h1
      rw [h4]
      simp only [ok_bind]
      by_cases hz : v.len - (a + d) = 0
      · rw [if_pos (by simpa [result] using hz)]
        exact Or.inr ⟨_, .last h1 h2 h3 (by omega), rfl⟩
      · rw [if_neg (by simpa [result] using hz)]
        have hp := strip_progress h1 (by intro h; rw [h] at hl; simp at hl; omega)
        have hval : View.Valid mem ⟨v.off + (a + d), v.len - (a + d)⟩ := by
          unfold View.Valid at hv ⊢; simp only; omega
        have hrem : (result v a x b c d).remainder = ⟨v.off + (a + d), v.len - (a + d)⟩ := rfl
        rw [hrem]
        rcases ih ⟨v.off + (a + d), v.len - (a + d)⟩ hval (by simp only; omega) (by simp only; omega) with
          ⟨g1, g2, g3⟩ | ⟨toks, g1, g2⟩
        · left
          rw [g1]
          refine ⟨rfl, by simp only at g2; omega, ?_⟩
          rw [elems_drop] at g3
          exact strip_over_back h1 g3
        · right
          rw [g2]
          exact ⟨_, .more h1 h2 h3 hp (by omega) g1, rfl⟩

theorem stripToken_spec (env : Env) (hd : AsciiDigits env) (mem : List Rune) (v : View) (hv : v.Valid mem)
    (hlen : (v.len : Int) < 2 ^ 63) :
    (stripToken env mem v = .error .slice ∧ mem.length = v.off + v.len ∧ Overruns env (v.elems mem)) ∨
    ∃ toks, Run env mem v toks ∧ stripToken env mem v = .ok (toks, mem) :=
  stripTokenLoop_spec env hd mem (v.len + 1) v hv hlen (by omega)

theorem run_length {env : Env} {mem : List Rune} {v : View} {toks : List StrippedToken}
    (h : Run env mem v toks) : 1 ≤ toks.length ∧ (toks.length ≤ v.len ∨ toks.length = 1) := by
  induction h with
  | last _ _ _ _ => simp
  | more _ _ _ h1 h2 _ ih =>
    simp only [List.length_cons] at ih ⊢
    omega

/-! ## The runes of the results -/

/-- The runes of a slice that may be nil. -/
def optElems (mem : List Rune) : Option View → List Rune
  | none => []
  | some v => v.elems mem

/-- The runes of the text. -/
def textElems (mem : List Rune) : Option Sl → List Rune
  | none => []
  | some s => s.elems mem

theorem optElems_optView (mem : List Rune) (o n : Nat) :
    optElems mem (optView o n) = View.elems mem ⟨o, n⟩ := by
  unfold optView
  by_cases h : n = 0
  · subst h; simp [optElems, View.elems]
  · rw [if_neg h]; rfl

/-- A part of the window. -/
theorem elems_part (mem : List Rune) (v : View) (q n : Nat) (h : q + n ≤ v.len) :
    View.elems mem ⟨v.off + q, n⟩ = ((v.elems mem).drop q).take n := by
  simp only [View.elems]
  rw [List.drop_take, List.drop_drop, List.take_take]
  congr 1; omega

theorem result_start (mem : List Rune) (v : View) (a : Nat) (x : Bool) (b c d : Nat) (h : a ≤ v.len) :
    optElems mem (result v a x b c d).start = (v.elems mem).take a := by
  simp only [result]
  rw [optElems_optView]
  have := elems_part mem v 0 a (by omega)
  simpa using this

theorem body_nil_text {env : Env} {s : Bool} {l : List Rune} {b c d : Nat} (h : Body env s l false b c d) :
    b = 0 := by
  cases h <;> rfl

theorem strip_nil_text {env : Env} {l : List Rune} {a b c d : Nat} (h : Strip env l a false b c d) : b = 0 := by
  cases h with
  | plain h => exact body_nil_text h
  | styled _ _ h => exact body_nil_text h

theorem result_text {env : Env} (mem : List Rune) (v : View) {a : Nat} {x : Bool} {b c d : Nat}
    (hs : Strip env (v.elems mem) a x b c d) (h : a + b ≤ v.len) :
    textElems mem (result v a x b c d).text = ((v.elems mem).drop a).take b := by
  cases x with
  | false => rw [strip_nil_text hs]; simp [result, textElems]
  | true =>
    simp only [result, if_true, textElems, Sl.elems]
    exact elems_part mem v a b h

theorem result_stop (mem : List Rune) (v : View) (a : Nat) (x : Bool) (b c d : Nat) (hb : b ≤ c)
    (h : a + c ≤ v.len) :
    optElems mem (result v a x b c d).stop = ((v.elems mem).drop (a + b)).take (c - b) := by
  simp only [result]
  rw [optElems_optView]
  have := elems_part mem v (a + b) (c - b) (by omega)
  rw [← this, Nat.add_assoc]

/-- The runes of a result. -/
def tokRunes (mem : List Rune) (t : StrippedToken) : List Rune :=
  optElems mem t.start ++ textElems mem t.text ++ optElems mem t.stop

theorem result_runes {env : Env} (mem : List Rune) (v : View) {a : Nat} {x : Bool} {b c d : Nat}
    (hs : Strip env (v.elems mem) a x b c d) (hb : b ≤ c) (h : a + c ≤ v.len) :
    tokRunes mem (result v a x b c d) = (v.elems mem).take (a + c) := by
  unfold tokRunes
  rw [result_start mem v a x b c d (by omega), result_text mem v hs (by omega),
    result_stop mem v a x b c d hb h]
  generalize v.elems mem = l
  rw [show a + c = (a + b) + (c - b) by omega, List.take_add, List.take_add]

theorem run_lossless {env : Env} (hd : AsciiDigits env) {mem : List Rune} {v : View} {toks : List StrippedToken}
    (h : Run env mem v toks) (hv : v.Valid mem) (hc : ¬ CutShort env (v.elems mem)) :
    toks.flatMap (tokRunes mem) = v.elems mem := by
  induction h with
  | last h1 h2 h3 h4 =>
    have := strip_tight hd h1 hc
    subst this
    simp only [List.flatMap_cons, List.flatMap_nil, List.append_nil]
    rw [result_runes mem _ h1 h3 (by omega), h4]
    exact List.take_of_length_le (by rw [View.elems_length hv]; exact Nat.le_refl _)
  | more h1 h2 h3 h4 h5 _ ih =>
    have := strip_tight hd h1 hc
    subst this
    simp only [List.flatMap_cons]
    rw [result_runes mem _ h1 h3 (by omega), ih (by unfold View.Valid at hv ⊢; simp only; omega)
      (by rw [elems_drop]; exact fun h => hc (cutShort_of_drop h)), elems_drop, List.take_append_drop]

end Verif.Proofs.Ansi
