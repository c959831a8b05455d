import Verif.Proofs.AnsiStrip

/-! # StripANSIFromRunes in terms of the scan -/

namespace Verif.Proofs.Ansi
open Verif.Go Verif.Model Verif.Model.Ansi Verif.Spec.Ansi

section steps
variable {env : Env} {fuel : Nat} {mem : List Rune} {rdr rdr' : SliceReader} {g0 : Option View} {seq r : View}
  {k : Kind}

theorem startLoop_error {e : Panic} (h : decodeANSISequence env mem rdr = .error e) :
    startLoop env mem (fuel + 1) rdr g0 = .error e := by
  rw [startLoop, h]; rfl

theorem startLoop_none (h : decodeANSISequence env mem rdr = .ok (none, k, rdr')) :
    startLoop env mem (fuel + 1) rdr g0 = .ok (.inr (rdr', g0)) := by
  rw [startLoop, h]; rfl

theorem startLoop_other (h : decodeANSISequence env mem rdr = .ok (some seq, .other, rdr'))
    (hr : rdr'.rest mem = .ok r) :
    startLoop env mem (fuel + 1) rdr g0 = .ok (.inl ⟨some (.view seq), g0, none, r⟩) := by
  rw [startLoop, h]
  simp only [ok_bind]
  rw [if_pos trivial, hr]; rfl

theorem startLoop_start (h : decodeANSISequence env mem rdr = .ok (some seq, .start, rdr'))
    (h2 : optLen g0 = 0) :
    startLoop env mem (fuel + 1) rdr g0 = startLoop env mem fuel rdr' (some seq) := by
  rw [startLoop, h]
  simp only [ok_bind]
  rw [if_neg (by simp), if_pos ⟨trivial, h2⟩]

theorem startLoop_stop (h : decodeANSISequence env mem rdr = .ok (some seq, .stop, rdr'))
    (hr : rdr'.rest mem = .ok r) :
    startLoop env mem (fuel + 1) rdr g0 = .ok (.inl ⟨none, g0, some seq, r⟩) := by
  rw [startLoop, h]
  simp only [ok_bind]
  rw [if_neg (by simp), if_neg (by simp), if_pos trivial, hr]; rfl

theorem startLoop_again (h : decodeANSISequence env mem rdr = .ok (some seq, .start, rdr'))
    (h2 : optLen g0 ≠ 0) (h3 : seq.len > 0)
    (hr : (rdr'.seek (-(seq.len : Int)) .current).2.rest mem = .ok r) :
    startLoop env mem (fuel + 1) rdr g0 = .ok (.inl ⟨none, g0, none, r⟩) := by
  rw [startLoop, h]
  simp only [ok_bind]
  rw [if_neg (by simp), if_neg (by simp [h2]), if_neg (by simp), if_pos h3, hr]; rfl

theorem strip_inl {rns : View} {tok : StrippedToken}
    (h : startLoop env mem 3 (newSliceReader rns) none = .ok (.inl tok)) :
    stripANSIFromRunes env mem rns = .ok (tok, mem) := by
  rw [stripANSIFromRunes, h]; rfl

theorem strip_inr {rns str : View}
    (h : startLoop env mem 3 (newSliceReader rns) none = .ok (.inr (rdr, g0)))
    (h2 : decodeText mem rdr = .ok (str, rdr')) :
    stripANSIFromRunes env mem rns = endLoop env g0 (rns.len + 2) mem rdr' (some (.view str)) none := by
  rw [stripANSIFromRunes, h]
  simp only [ok_bind, h2]

theorem strip_error {rns : View} {e : Panic}
    (h : startLoop env mem 3 (newSliceReader rns) none = .error e) :
    stripANSIFromRunes env mem rns = .error e := by
  rw [stripANSIFromRunes, h]; rfl

end steps

/-- What comes after the starting sequence, if there is one (`s`): whether the text is not nil, the end of
the text, the end of the stop sequence and the start of the remainder. -/
inductive Body (env : Env) (s : Bool) : List Rune → Bool → Nat → Nat → Nat → Prop where
  | other {l n} : decodeSeq env l = some (n, .other) → n ≤ l.length → Body env s l true n n n
  | overrun {l} : decodeSeq env l = some (l.length + 1, .other) →
      Body env s l true (l.length + 1) (l.length + 1) l.length
  | stop {l n} : decodeSeq env l = some (n, .stop) → n ≤ l.length → Body env s l false 0 n n
  | start {l n} : s = true → decodeSeq env l = some (n, .start) → n ≤ l.length → Body env s l false 0 0 0
  | text {l t p d} : decodeSeq env l = none → Trail env (l.drop (textLen l)) t p d →
      Body env s l true (textLen l + t) (textLen l + t + p) (textLen l + d)

/-- The parts of a result: a starting sequence of `a` runes, and the rest. -/
inductive Strip (env : Env) : List Rune → Nat → Bool → Nat → Nat → Nat → Prop where
  | plain {l x b c d} : Body env false l x b c d → Strip env l 0 x b c d
  | styled {l a x b c d} : decodeSeq env l = some (a, .start) → a ≤ l.length →
      Body env true (l.drop a) x b c d → Strip env l a x b c d

/-- The result with given parts. -/
def result (v : View) (a : Nat) (x : Bool) (b c d : Nat) : StrippedToken :=
  ⟨if x then some (.view ⟨v.off + a, b⟩) else none, optView v.off a, optView (v.off + a + b) (c - b),
    ⟨v.off + (a + d), v.len - (a + d)⟩⟩

theorem optView_zero (o : Nat) : optView o 0 = none := rfl

theorem optView_pos {o n : Nat} (h : n ≠ 0) : optView o n = some ⟨o, n⟩ := if_neg h

theorem body_spec (env : Env) (hd : AsciiDigits env) (mem : List Rune) (v : View) (hv : v.Valid mem)
    (hlen : (v.len : Int) < 2 ^ 63) (fuel a : Nat) (ha : a ≤ v.len) (s : Bool) (hs : s = true ↔ a ≠ 0)
    (hfirst : s = false → ∀ n, decodeSeq env ((v.elems mem).drop a) ≠ some (n, .start)) :
    (startLoop env mem (fuel + 1) ⟨a, v⟩ (optView v.off a) = .error .slice ∧
      mem.length = v.off + v.len ∧ Overruns env ((v.elems mem).drop a)) ∨
    (∃ x b c d, Body env s ((v.elems mem).drop a) x b c d ∧ v.off + a + c ≤ mem.length ∧ b ≤ c ∧
      startLoop env mem (fuel + 1) ⟨a, v⟩ (optView v.off a) = .ok (.inl (result v a x b c d))) ∨
    (decodeSeq env ((v.elems mem).drop a) = none ∧
      startLoop env mem (fuel + 1) ⟨a, v⟩ (optView v.off a) = .ok (.inr (⟨a, v⟩, optView v.off a))) := by
  have hl := View.elems_length hv
  have hv' := hv
  unfold View.Valid at hv'
  have hlq : ((v.elems mem).drop a).length = v.len - a := by rw [List.length_drop, hl]
  have hdec := decode_spec env hd mem v hv hlen a ha
  cases hsc : decodeSeq env ((v.elems mem).drop a) with
  | none =>
    rw [hsc] at hdec
    exact Or.inr (Or.inr ⟨rfl, startLoop_none hdec⟩)
  | some nk =>
    obtain ⟨n, k⟩ := nk
    have hb := decodeSeq_bounds hsc
    rw [hsc] at hdec
    simp only at hdec
    by_cases hfit : v.off + a + n ≤ mem.length
    · rw [if_pos hfit] at hdec
      by_cases hin : n ≤ v.len - a
      · have hmin : min (a + n) v.len = a + n := by omega
        rw [hmin] at hdec
        cases k with
        | other =>
          refine Or.inr (Or.inl ⟨true, n, n, n, .other hsc (by omega), hfit, Nat.le_refl _, ?_⟩)
          rw [startLoop_other hdec (rest_at mem v hv (a + n) (by omega))]
          simp [result, optView]
        | start =>
          cases s with
          | false => exact absurd hsc (hfirst rfl n)
          | true =>
            have ha0 : a ≠ 0 := hs.mp rfl
            refine Or.inr (Or.inl ⟨false, 0, 0, 0, .start rfl hsc (by omega), by omega, Nat.le_refl _, ?_⟩)
            have hsk := seek_back v (a + n) n (by omega) hlen (by omega)
            have e : a + n - n = a := by omega
            rw [e] at hsk
            rw [startLoop_again hdec (by rw [optView_pos ha0]; exact ha0) (by simp only; omega)
              (by simp only; rw [hsk]; exact rest_at mem v hv a ha)]
            simp [result, optView]
        | stop =>
          refine Or.inr (Or.inl ⟨false, 0, n, n, .stop hsc (by omega), hfit, by omega, ?_⟩)
          rw [startLoop_stop hdec (rest_at mem v hv (a + n) (by omega))]
          simp [result]
          rw [optView_pos (by omega)]
      · obtain ⟨o1, o2, _⟩ := decodeSeq_overrun hd hsc (by omega)
        subst o2
        have hmin : min (a + n) v.len = v.len := by omega
        rw [hmin] at hdec
        refine Or.inr (Or.inl ⟨true, _, _, _, .overrun (by rw [hsc, o1]), by omega, Nat.le_refl _, ?_⟩)
        rw [startLoop_other hdec (rest_at mem v hv v.len (Nat.le_refl _))]
        have e : a + ((v.elems mem).drop a).length = v.len := by omega
        simp only [result, if_true, e, Nat.sub_self, optView_zero]
        rw [← o1]
    · left
      rw [if_neg hfit] at hdec
      obtain ⟨o1, o2, _⟩ := decodeSeq_overrun hd hsc (by omega)
      exact ⟨startLoop_error hdec, by omega, .here (by rw [hsc, o1, o2])⟩

/-- StripANSIFromRunes, by the scan. -/
theorem strip_spec (env : Env) (hd : AsciiDigits env) (mem : List Rune) (v : View) (hv : v.Valid mem)
    (hlen : (v.len : Int) < 2 ^ 63) :
    (stripANSIFromRunes env mem v = .error .slice ∧
      mem.length = v.off + v.len ∧ Overruns env (v.elems mem)) ∨
    ∃ a x b c d, Strip env (v.elems mem) a x b c d ∧ v.off + a + c ≤ mem.length ∧ b ≤ c ∧
      stripANSIFromRunes env mem v = .ok (result v a x b c d, mem) := by
  have hl := View.elems_length hv
  -- after the starting sequence
  have hend : ∀ (a : Nat) (ha : a ≤ v.len) (s : Bool),
      decodeSeq env ((v.elems mem).drop a) = none →
      startLoop env mem 3 (newSliceReader v) none = .ok (.inr (⟨a, v⟩, optView v.off a)) →
      (stripANSIFromRunes env mem v = .error .slice ∧ mem.length = v.off + v.len ∧
        Overruns env ((v.elems mem).drop a)) ∨
      ∃ x b c d, Body env s ((v.elems mem).drop a) x b c d ∧ v.off + a + c ≤ mem.length ∧ b ≤ c ∧
        stripANSIFromRunes env mem v = .ok (result v a x b c d, mem) := by
    intro a ha s hnone hst
    rw [strip_inr hst (decodeText_spec mem v hv hlen a ha)]
    have ht := textLen_le ((v.elems mem).drop a)
    rw [List.length_drop] at ht
    have := endLoop_spec env hd mem v hv hlen (optView v.off a) (v.len + 2)
      (a + textLen ((v.elems mem).drop a)) a (by omega) (by omega) (by omega)
    rw [show a + textLen ((v.elems mem).drop a) - a = textLen ((v.elems mem).drop a) by omega] at this
    rcases this with h | ⟨t, p, d, h1, h2, h3⟩
    · exact Or.inl ⟨h.1, h.2.1, .text hnone (by rw [List.drop_drop]; exact h.2.2)⟩
    · refine Or.inr ⟨true, _, _, _, .text (l := (v.elems mem).drop a) hnone (by rw [List.drop_drop]; exact h1),
        by omega, by omega, ?_⟩
      rw [h3]
      simp only [result, if_true]
      rw [show a + textLen ((v.elems mem).drop a) + t - a = textLen ((v.elems mem).drop a) + t by omega,
        show v.off + (a + textLen ((v.elems mem).drop a)) + t =
          v.off + a + (textLen ((v.elems mem).drop a) + t) by omega,
        show textLen ((v.elems mem).drop a) + t + p - (textLen ((v.elems mem).drop a) + t) = p by omega,
        show a + textLen ((v.elems mem).drop a) + d = a + (textLen ((v.elems mem).drop a) + d) by omega]
  by_cases hstart : ∃ n, decodeSeq env ((v.elems mem).drop 0) = some (n, .start)
  · obtain ⟨a, hsc⟩ := hstart
    have hb := decodeSeq_bounds hsc
    have hlq : ((v.elems mem).drop 0).length = v.len := by rw [List.length_drop, hl]; rfl
    have hin : a ≤ v.len := by
      apply Classical.byContradiction
      intro hc
      have := (decodeSeq_overrun hd hsc (by omega)).2.1
      cases this
    have hdec := decode_spec env hd mem v hv hlen 0 (by omega)
    rw [hsc] at hdec
    unfold View.Valid at hv
    simp only at hdec
    rw [if_pos (by omega), show min (0 + a) v.len = a by omega] at hdec
    have hst : startLoop env mem 3 (newSliceReader v) none = startLoop env mem 2 ⟨a, v⟩ (optView v.off a) := by
      rw [optView_pos (by omega)]
      exact startLoop_start hdec rfl
    rcases body_spec env hd mem v hv hlen 1 a hin true (by simp; omega) (by simp) with h | ⟨x, b, c, d, h1, h2, h3, h4⟩ | ⟨h1, h2⟩
    · exact Or.inl ⟨strip_error (by rw [hst, h.1]), h.2.1, .seq hsc (by omega) h.2.2⟩
    · exact Or.inr ⟨a, x, b, c, d, .styled hsc (by omega) h1, h2, h3, strip_inl (by rw [hst, h4])⟩
    · rcases hend a hin true h1 (by rw [hst, h2]) with h | ⟨x, b, c, d, h1, h2, h3, h4⟩
      · exact Or.inl ⟨h.1, h.2.1, .seq hsc (by omega) h.2.2⟩
      · exact Or.inr ⟨a, x, b, c, d, .styled hsc (by omega) h1, h2, h3, h4⟩
  · rcases body_spec env hd mem v hv hlen 2 0 (by omega) false (by simp)
      (fun _ n h => hstart ⟨n, h⟩) with h | ⟨x, b, c, d, h1, h2, h3, h4⟩ | ⟨h1, h2⟩
    · exact Or.inl ⟨strip_error h.1, h.2⟩
    · exact Or.inr ⟨0, x, b, c, d, .plain h1, h2, h3, strip_inl h4⟩
    · rcases hend 0 (by omega) false h1 h2 with h | ⟨x, b, c, d, h1, h2, h3, h4⟩
      · exact Or.inl h
      · exact Or.inr ⟨0, x, b, c, d, .plain h1, h2, h3, h4⟩

end Verif.Proofs.Ansi
