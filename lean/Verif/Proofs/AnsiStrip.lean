import Verif.Proofs.AnsiScan

/-! # The functions of package `ansi`, in terms of the scan -/

namespace Verif.Proofs.Ansi
open Verif.Go Verif.Model Verif.Model.Ansi Verif.Spec.Ansi

theorem decodeSeq_bounds {env : Env} {l : List Rune} {n : Nat} {k : Kind} (h : decodeSeq env l = some (n, k)) :
    2 ≤ n ∧ n ≤ l.length + 1 ∧ 2 ≤ l.length := by
  match l, h with
  | [], h => cases h
  | [_], h => cases h
  | a :: b :: rest, h =>
    simp only [decodeSeq] at h
    split at h
    · have := seqScan_bounds env rest 0 true true 2
      rw [Option.some.inj h] at this
      simp only [List.length_cons]; simp only at this; omega
    · cases h

theorem decodeSeq_overrun {env : Env} (hd : AsciiDigits env) {l : List Rune} {n : Nat} {k : Kind}
    (h : decodeSeq env l = some (n, k)) (hn : l.length < n) :
    n = l.length + 1 ∧ k = .other ∧ EndsInThreeDigits env l := by
  have hb := decodeSeq_bounds h
  have hn' : n = l.length + 1 := by omega
  match l, h with
  | [], h => cases h
  | [_], h => cases h
  | a :: b :: rest, h =>
    simp only [decodeSeq] at h
    split at h
    · rename_i hab
      have hs := Option.some.inj h
      have := seqScan_overrun env hd rest [a] [] b true true 2 (Or.inl hab.2) (by simp) (by simp) (by
        simp only [List.length_nil]
        rw [hs]; simp only [List.length_cons] at hn'; simp only; omega)
      simp only [List.length_nil] at this
      rw [hs] at this
      exact ⟨hn', this.2, this.1⟩
    · cases h

theorem finish_eq (s : Scan) (n p : Nat) (h2 : s.runeCount + (if s.eof then 0 else 1) = n)
    (h3 : s.nextStart = s.runeCount + p) :
    (if (!s.eof) = true then
      ({ s with runeCount := s.runeCount + 1, nextStart := s.nextStart + 1 } : Scan) else s) =
      { s with runeCount := n, nextStart := n + p } := by
  obtain ⟨rdr, r, eof, z, c, nx⟩ := s
  simp only at h2 h3
  cases eof with
  | true =>
    have : c = n := by simpa using h2
    simp only [h3, this, Bool.not_true, Bool.false_eq_true, if_false]
  | false =>
    have : c + 1 = n := by simpa using h2
    have h4 : nx + 1 = n + p := by omega
    simp only [this, h4, Bool.not_false, if_true]

/-- decodeParams, by the scan. -/
theorem params_spec (env : Env) (hd : AsciiDigits env) (mem : List Rune) (v : View) (hv : v.Valid mem)
    (p : Nat) (hlen2 : p + 1 + 1 ≤ v.len) (rest : List Rune)
    (h5 : (v.elems mem).drop (p + 1 + 1) = rest) (b : Rune) :
    decodeParams env mem p ((p + 1 + 1 : Nat) : Int) ⟨((p + 1 + 1 : Nat) : Int), v⟩ b =
      (if v.off + p + (seqScan env 0 true true 2 rest).1 ≤ mem.length then
          .ok (some ⟨v.off + p, (seqScan env 0 true true 2 rest).1⟩, (seqScan env 0 true true 2 rest).2,
            ⟨((min (p + (seqScan env 0 true true 2 rest).1) v.len : Nat) : Int), v⟩)
        else .error .slice) := by
  have hrest : rest.length = v.len - (p + 2) := by
    have := congrArg List.length h5
    have hel := View.elems_length hv
    simp only [List.length_drop] at this
    omega
  obtain ⟨s, e1, e2⟩ := loops_spec env hd mem v hv p rest 0 true true 2 (v.len + 1) (p + 1 + 1)
    ⟨⟨((p + 1 + 1 : Nat) : Int), v⟩, b, false, true, 2, ((p + 1 + 1 : Nat) : Int)⟩
    (by omega) hlen2 h5 (by omega) rfl rfl rfl (by simp only; omega)
  have hsb := seqScan_bounds env rest 0 true true 2
  generalize seqScan env 0 true true 2 rest = res at e2 hsb
  obtain ⟨n, k⟩ := res
  obtain ⟨k1, k2, k3, k4, k5⟩ := e2
  simp only at k1 k2 k3 k4 k5 hsb ⊢
  rw [show 3 - 0 = maxDigits from rfl] at e1
  rw [decodeParams]
  generalize hdl : digitsLoop env mem true maxDigits
      ⟨⟨((p + 1 + 1 : Nat) : Int), v⟩, b, false, true, 2, ((p + 1 + 1 : Nat) : Int)⟩ = dl at e1 ⊢
  cases dl with
  | error e => cases e1
  | ok s1 =>
    simp only [ok_bind] at e1 ⊢
    rw [e1]
    simp only [ok_bind]
    have hcount : (if (!s.eof) = true then
        ({ s with runeCount := s.runeCount + 1, nextStart := s.nextStart + 1 } : Scan) else s) =
        { s with runeCount := n, nextStart := n + p } := by
      exact finish_eq s n p k2 k3
    rw [hcount]
    simp only [k1]
    unfold SliceReader.slice View.sub
    simp only [k4]
    by_cases hfit : v.off + p + n ≤ mem.length
    · rw [if_pos (by omega), if_pos hfit]
      simp only [ok_bind, pure_eq_ok]
      rw [if_pos (by omega)]
      have e3 : (p : Int).toNat = p := by omega
      have e4 : ((p : Int) + (n : Int)).toNat - (p : Int).toNat = n := by omega
      rw [e3] at e4 ⊢
      rw [e4]
      have e5 : ((n : Int) + (p : Int)) = ((p + n : Nat) : Int) := by omega
      rw [e5]
      have e6 : s.rdr = ⟨s.rdr.offset, v⟩ := by rw [← k4]
      rw [e6, seek_start]
      by_cases hin : p + n ≤ v.len
      · rw [if_pos hin]
        have : min (p + n) v.len = p + n := by omega
        rw [this]
      · rw [if_neg hin]
        have : min (p + n) v.len = v.len := by omega
        rw [this, k5 (by omega)]
    · rw [if_neg (by omega), if_neg hfit]
      rfl

/-- decodeANSISequence, by the scan. -/
theorem decode_spec (env : Env) (hd : AsciiDigits env) (mem : List Rune) (v : View) (hv : v.Valid mem)
    (hlen : (v.len : Int) < 2 ^ 63) (p : Nat) (hp : p ≤ v.len) :
    decodeANSISequence env mem ⟨p, v⟩ =
      match decodeSeq env ((v.elems mem).drop p) with
      | none => .ok (none, .other, ⟨p, v⟩)
      | some (n, k) =>
        if v.off + p + n ≤ mem.length then
          .ok (some ⟨v.off + p, n⟩, k, ⟨((min (p + n) v.len : Nat) : Int), v⟩)
        else .error .slice := by
  have hback : ∀ q : Int, (SliceReader.seek ⟨q, v⟩ (p : Int) .start).2 = ⟨p, v⟩ := by
    intro q; rw [seek_start, if_pos hp]
  rw [decodeANSISequence, seek_here v p hp hlen]
  rw [show (some (p : Int), (⟨p, v⟩ : SliceReader)).1.getD (-1) = p from rfl]
  rw [decodeIntroducer]
  generalize hl : (v.elems mem).drop p = l
  match l, hl with
  | [], hl =>
    simp only [(readRune_none hv hp hl).1, ok_bind, hback]
    rfl
  | [a], hl =>
    obtain ⟨h1, h2, h3⟩ := readRune_some hv hl
    simp only [h1, ok_bind]
    by_cases ha : a = esc
    · rw [if_neg (by simpa using ha)]
      simp only [(readRune_none hv (by omega) h2).1, ok_bind, hback]
      rfl
    · rw [if_pos (by simpa using ha), hback]
      rfl
  | a :: b :: rest, hl =>
    obtain ⟨h1, h2, h3⟩ := readRune_some hv hl
    simp only [h1, ok_bind]
    by_cases ha : a = esc
    · rw [if_neg (by simpa using ha)]
      obtain ⟨h4, h5, h6⟩ := readRune_some hv h2
      simp only [h4, ok_bind]
      by_cases hb : b = openingBracket
      · rw [if_neg (by simpa using hb)]
        rw [seek_here v (p + 1 + 1) (by omega) hlen]
        rw [show decodeSeq env (a :: b :: rest) = some (seqScan env 0 true true 2 rest) by
          simp only [decodeSeq]; rw [if_pos ⟨ha, hb⟩]]
        exact params_spec env hd mem v hv p (by omega) rest h5 b
      · rw [if_pos (by simpa using hb), hback]
        simp only [decodeSeq]
        rw [if_neg (fun h => hb h.2)]
        rfl
    · rw [if_pos (by simpa using ha), hback]
      simp only [decodeSeq]
      rw [if_neg (fun h => ha h.1)]
      rfl

/-- The length of the text read by decodeText. -/
def textLen : List Rune → Nat
  | [] => 0
  | [_] => 1
  | a :: b :: rest =>
    if a = esc then (if b = openingBracket then 0 else 2 + textLen rest)
    else 1 + textLen (b :: rest)

theorem textLen_le : ∀ l : List Rune, textLen l ≤ l.length
  | [] => by simp [textLen]
  | [_] => by simp [textLen]
  | a :: b :: rest => by
    simp only [textLen]
    have h1 := textLen_le rest
    have h2 := textLen_le (b :: rest)
    simp only [List.length_cons] at h2 ⊢
    split
    · split <;> omega
    · omega

theorem textLoop_spec (mem : List Rune) (v : View) (hv : v.Valid mem) (hlen : (v.len : Int) < 2 ^ 63) :
    ∀ (fuel p : Nat) (c : Int), p ≤ v.len → v.len - p + 1 ≤ fuel →
    textLoop mem fuel ⟨p, v⟩ c = .ok (⟨((p + textLen ((v.elems mem).drop p) : Nat) : Int), v⟩,
      c + textLen ((v.elems mem).drop p)) := by
  intro fuel
  induction fuel with
  | zero => intro p c _ h; omega
  | succ fuel ih =>
    intro p c hp hf
    unfold textLoop
    generalize hl : (v.elems mem).drop p = l
    match l, hl with
    | [], hl =>
      obtain ⟨h1, h2⟩ := readRune_none hv hp hl
      simp only [h1, ok_bind, pure_eq_ok, textLen]
      simp
    | [a], hl =>
      obtain ⟨h1, h2, h3⟩ := readRune_some hv hl
      simp only [h1, ok_bind]
      by_cases ha : a = esc
      · rw [if_pos (by simpa using ha)]
        simp only [(readRune_none hv (by omega) h2).1, ok_bind, pure_eq_ok, textLen]
        rfl
      · rw [if_neg (by simpa using ha), ih (p + 1) _ (by omega) (by omega), h2]
        simp [textLen]
    | a :: b :: rest, hl =>
      obtain ⟨h1, h2, h3⟩ := readRune_some hv hl
      simp only [h1, ok_bind]
      by_cases ha : a = esc
      · rw [if_pos (by simpa using ha)]
        obtain ⟨h4, h5, h6⟩ := readRune_some hv h2
        simp only [h4, ok_bind]
        by_cases hb : b = openingBracket
        · rw [if_pos (by simpa using hb)]
          have := seek_back v (p + 1 + 1) 2 (by omega) hlen (by omega)
          rw [show (-(2 : Nat) : Int) = -2 from rfl] at this
          rw [this]
          simp only [textLen, ha, hb, if_true, pure_eq_ok]
          simp
        · rw [if_neg (by simpa using hb), ih (p + 1 + 1) _ (by omega) (by omega), h5]
          have e : textLen (a :: b :: rest) = 2 + textLen rest := by
            simp only [textLen]; rw [if_pos ha, if_neg hb]
          rw [e]
          congr 2
          · congr 1; omega
          · omega
      · rw [if_neg (by simpa using ha), ih (p + 1) _ (by omega) (by omega), h2]
        have e : textLen (a :: b :: rest) = 1 + textLen (b :: rest) := by
          simp only [textLen]; rw [if_neg ha]
        rw [e]
        congr 2
        · congr 1; omega
        · omega

theorem decodeText_spec (mem : List Rune) (v : View) (hv : v.Valid mem) (hlen : (v.len : Int) < 2 ^ 63)
    (p : Nat) (hp : p ≤ v.len) :
    decodeText mem ⟨p, v⟩ = .ok (⟨v.off + p, textLen ((v.elems mem).drop p)⟩,
      ⟨((p + textLen ((v.elems mem).drop p) : Nat) : Int), v⟩) := by
  have hl := View.elems_length hv
  have ht := textLen_le ((v.elems mem).drop p)
  rw [List.length_drop] at ht
  have hv' := hv
  unfold View.Valid at hv'
  rw [decodeText, seek_here v p hp hlen]
  rw [show (some (p : Int), (⟨p, v⟩ : SliceReader)).1.getD (-1) = p from rfl]
  rw [decodeTextFrom, textLoop_spec mem v hv hlen _ p 0 hp (by simp only; omega)]
  simp only [ok_bind, SliceReader.slice, View.sub]
  rw [if_pos (by omega)]
  simp only [ok_bind, pure_eq_ok]
  congr 3
  omega

/-! ## The trailing sequences -/

/-- The trailing part, from the end of the text on: `t` further runes of text, a stop sequence of `s`
runes, a remainder at `d`. -/
inductive Trail (env : Env) : List Rune → Nat → Nat → Nat → Prop where
  | done {l} : decodeSeq env l = none → Trail env l 0 0 0
  | start {l n} : decodeSeq env l = some (n, .start) → Trail env l 0 0 0
  | other {l n t s d} : decodeSeq env l = some (n, .other) → n ≤ l.length → Trail env (l.drop n) t s d →
      Trail env l (n + t) s (n + d)
  | overrun {l} : decodeSeq env l = some (l.length + 1, .other) → Trail env l (l.length + 1) 0 l.length
  | stop {l n} : decodeSeq env l = some (n, .stop) → n ≤ l.length →
      (∀ m k, decodeSeq env (l.drop n) = some (m, k) → m ≤ (l.drop n).length) → Trail env l 0 n n
  | stopOverrun {l n} : decodeSeq env l = some (n, .stop) → n ≤ l.length →
      decodeSeq env (l.drop n) = some ((l.drop n).length + 1, .other) → Trail env l 0 n (n - 1)

/-- The scan goes beyond the end of the text in the end. -/
inductive Overruns (env : Env) : List Rune → Prop where
  | here {l} : decodeSeq env l = some (l.length + 1, .other) → Overruns env l
  | seq {l n k} : decodeSeq env l = some (n, k) → n ≤ l.length → Overruns env (l.drop n) → Overruns env l
  | text {l} : decodeSeq env l = none → Overruns env (l.drop (textLen l)) → Overruns env l

/-- A window, nil if it is empty. -/
def optView (off len : Nat) : Option View := if len = 0 then none else some ⟨off, len⟩

theorem decodeSeq_nil (env : Env) : decodeSeq env [] = none := rfl

/-- Appending what lies behind the text writes nothing new. -/
theorem append_in_place (mem : List Rune) (a b n : Nat) (hab : a ≤ b) (h : b + n ≤ mem.length) :
    appendSl mem (.view ⟨a, b - a⟩) ⟨b, n⟩ = (.view ⟨a, b - a + n⟩, mem) := by
  unfold appendSl
  simp only
  have e : a + (b - a) = b := by omega
  rw [e, if_pos h]
  congr 1
  simp only [View.elems, List.append_assoc]
  rw [← List.drop_drop, List.take_append_drop, List.take_append_drop]

section steps
variable {env : Env} {g0 : Option View} {fuel : Nat} {mem : List Rune} {rdr rdr' : SliceReader}
  {g1 : Option Sl} {g2 : Option View} {seq : View} {k : Kind}

/-- The result at the end of the trailing sequences. -/
def finish (g0 : Option View) (mem : List Rune) (g1 : Option Sl) (g2 : Option View) (rdr : SliceReader) :
    Res (StrippedToken × List Rune) := do
  return (⟨g1, g0, g2, ← rdr.rest mem⟩, mem)

theorem endLoop_error {e : Panic} (h : decodeANSISequence env mem rdr = .error e) :
    endLoop env g0 (fuel + 1) mem rdr g1 g2 = .error e := by
  rw [endLoop, h]; rfl

theorem endLoop_none (h : decodeANSISequence env mem rdr = .ok (none, k, rdr')) :
    endLoop env g0 (fuel + 1) mem rdr g1 g2 = finish g0 mem g1 g2 rdr' := by
  rw [endLoop, h]; rfl

theorem endLoop_other {s : Sl} (h : decodeANSISequence env mem rdr = .ok (some seq, .other, rdr'))
    (h2 : optLen g2 = 0) :
    endLoop env g0 (fuel + 1) mem rdr (some s) g2 =
      endLoop env g0 fuel (appendSl mem s seq).2 rdr' (some (appendSl mem s seq).1) g2 := by
  rw [endLoop, h]
  simp only [ok_bind]
  rw [if_pos ⟨trivial, h2⟩]

theorem endLoop_stop (h : decodeANSISequence env mem rdr = .ok (some seq, .stop, rdr'))
    (h2 : optLen g2 = 0) :
    endLoop env g0 (fuel + 1) mem rdr g1 g2 = endLoop env g0 fuel mem rdr' g1 (some seq) := by
  rw [endLoop, h]
  simp only [ok_bind]
  rw [if_neg (by simp), if_neg (by simp), if_pos ⟨trivial, h2⟩]

theorem endLoop_back (h : decodeANSISequence env mem rdr = .ok (some seq, k, rdr'))
    (h2 : k = .start ∨ optLen g2 > 0) (h3 : seq.len > 0) :
    endLoop env g0 (fuel + 1) mem rdr g1 g2 =
      finish g0 mem g1 g2 (rdr'.seek (-(seq.len : Int)) .current).2 := by
  rw [endLoop, h]
  simp only [ok_bind]
  cases k with
  | other =>
    have h4 : optLen g2 > 0 := by simpa using h2
    rw [if_neg (by simp; omega), if_pos ⟨rfl, h4⟩]; rfl
  | start =>
    rw [if_neg (by simp), if_neg (by simp), if_neg (by simp), if_pos rfl]; rfl
  | stop =>
    have h4 : optLen g2 > 0 := by simpa using h2
    rw [if_neg (by simp), if_neg (by simp), if_neg (by simp; omega), if_neg (by simp), if_pos h3]; rfl

theorem finish_ok {r : View} (h : rdr.rest mem = .ok r) :
    finish g0 mem g1 g2 rdr = .ok (⟨g1, g0, g2, r⟩, mem) := by
  rw [finish, h]; rfl

end steps

theorem endLoop_spec (env : Env) (hd : AsciiDigits env) (mem : List Rune) (v : View) (hv : v.Valid mem)
    (hlen : (v.len : Int) < 2 ^ 63) (g0 : Option View) :
    ∀ (fuel q a : Nat), a ≤ q → q ≤ v.len → v.len - q + 2 ≤ fuel →
    (endLoop env g0 fuel mem ⟨q, v⟩ (some (.view ⟨v.off + a, q - a⟩)) none = .error .slice ∧
      mem.length = v.off + v.len ∧ Overruns env ((v.elems mem).drop q)) ∨
    ∃ t s d, Trail env ((v.elems mem).drop q) t s d ∧ v.off + q + t + s ≤ mem.length ∧
      endLoop env g0 fuel mem ⟨q, v⟩ (some (.view ⟨v.off + a, q - a⟩)) none =
        .ok (⟨some (.view ⟨v.off + a, q + t - a⟩), g0, optView (v.off + q + t) s,
          ⟨v.off + (q + d), v.len - (q + d)⟩⟩, mem) := by
  have hl := View.elems_length hv
  have hv' := hv
  unfold View.Valid at hv'
  intro fuel
  induction fuel with
  | zero => intro q a _ _ h; omega
  | succ fuel ih =>
    intro q a haq hq hf
    have hlq : ((v.elems mem).drop q).length = v.len - q := by rw [List.length_drop, hl]
    have hdec := decode_spec env hd mem v hv hlen q hq
    have hself : ∀ (o : Option Sl) (g2 : Option View), decodeSeq env ((v.elems mem).drop q) = none →
        endLoop env g0 (fuel + 1) mem ⟨q, v⟩ o g2 = .ok (⟨o, g0, g2, ⟨v.off + q, v.len - q⟩⟩, mem) := by
      intro o g2 h
      rw [h] at hdec
      simp only at hdec
      rw [endLoop_none hdec, finish_ok (rest_at mem v hv q hq)]
    cases hsc : decodeSeq env ((v.elems mem).drop q) with
    | none =>
      refine Or.inr ⟨0, 0, 0, .done hsc, by omega, ?_⟩
      rw [hself _ _ hsc]; rfl
    | some nk =>
      obtain ⟨n, k⟩ := nk
      have hb := decodeSeq_bounds hsc
      rw [hsc] at hdec
      simp only at hdec
      by_cases hfit : v.off + q + n ≤ mem.length
      · rw [if_pos hfit] at hdec
        by_cases hin : n ≤ v.len - q
        · -- within the text
          have hmin : min (q + n) v.len = q + n := by omega
          rw [hmin] at hdec
          cases k with
          | other =>
            have hstep : endLoop env g0 (fuel + 1) mem ⟨q, v⟩ (some (.view ⟨v.off + a, q - a⟩)) none =
                endLoop env g0 fuel mem ⟨((q + n : Nat) : Int), v⟩
                  (some (.view ⟨v.off + a, q + n - a⟩)) none := by
              rw [endLoop_other hdec rfl]
              have := append_in_place mem (v.off + a) (v.off + q) n (by omega) hfit
              have e : v.off + q - (v.off + a) = q - a := by omega
              rw [e] at this
              rw [this]
              have e2 : q - a + n = q + n - a := by omega
              simp only [e2]
            rw [hstep]
            rcases ih (q + n) a (by omega) (by omega) (by omega) with h | ⟨t, s, d, h1, h2, h3⟩
            · exact Or.inl ⟨h.1, h.2.1, .seq hsc (by omega) (by rw [List.drop_drop]; exact h.2.2)⟩
            · refine Or.inr ⟨n + t, s, n + d, .other hsc (by omega) (by rw [List.drop_drop]; exact h1), by omega, ?_⟩
              rw [h3]
              have e1 : q + n + t = q + (n + t) := by omega
              have e2 : v.off + (q + n) + t = v.off + q + (n + t) := by omega
              have e3 : q + n + d = q + (n + d) := by omega
              rw [e1, e2, e3]
          | start =>
            refine Or.inr ⟨0, 0, 0, .start hsc, by omega, ?_⟩
            rw [endLoop_back hdec (Or.inl rfl) (by simp only; omega)]
            have hsk := seek_back v (q + n) n (by omega) hlen (by omega)
            have e : q + n - n = q := by omega
            rw [e] at hsk
            simp only
            rw [hsk, finish_ok (rest_at mem v hv q hq)]
            rfl
          | stop =>
            obtain ⟨f, hfu⟩ : ∃ f, fuel = f + 1 := ⟨fuel - 1, by omega⟩
            have hc : q + n ≤ v.len := by omega
            have hstep : endLoop env g0 (fuel + 1) mem ⟨q, v⟩ (some (.view ⟨v.off + a, q - a⟩)) none =
                endLoop env g0 (f + 1) mem ⟨((q + n : Nat) : Int), v⟩
                  (some (.view ⟨v.off + a, q - a⟩)) (some ⟨v.off + q, n⟩) := by
              rw [endLoop_stop hdec rfl, hfu]
            have hdec2 := decode_spec env hd mem v hv hlen (q + n) hc
            have hopt : optView (v.off + q + 0) n = some ⟨v.off + q, n⟩ := by
              unfold optView; rw [if_neg (by omega)]; rfl
            have hdd : ((v.elems mem).drop q).drop n = (v.elems mem).drop (q + n) := List.drop_drop
            have hlc : ((v.elems mem).drop (q + n)).length = v.len - (q + n) := by rw [List.length_drop, hl]
            rw [hstep]
            cases hsc2 : decodeSeq env ((v.elems mem).drop (q + n)) with
            | none =>
              rw [hsc2] at hdec2
              simp only at hdec2
              refine Or.inr ⟨0, n, n, .stop hsc (by omega) (by
                rw [hdd, hsc2]; intro m k h; cases h), by omega, ?_⟩
              rw [endLoop_none hdec2, finish_ok (rest_at mem v hv (q + n) hc)]
              rw [hopt]; rfl
            | some mk =>
              obtain ⟨m, k2⟩ := mk
              have hb2 := decodeSeq_bounds hsc2
              rw [hsc2] at hdec2
              simp only at hdec2
              by_cases hfit2 : v.off + (q + n) + m ≤ mem.length
              · rw [if_pos hfit2] at hdec2
                by_cases hin2 : m ≤ v.len - (q + n)
                · have hmin2 : min (q + n + m) v.len = q + n + m := by omega
                  rw [hmin2] at hdec2
                  refine Or.inr ⟨0, n, n, .stop hsc (by omega) (by
                    rw [hdd, hsc2]; intro m' k' h; cases h; omega), by omega, ?_⟩
                  have hsk := seek_back v (q + n + m) m (by omega) hlen (by omega)
                  have e : q + n + m - m = q + n := by omega
                  rw [e] at hsk
                  rw [endLoop_back hdec2 (Or.inr (by simp only [optLen]; omega)) (by simp only; omega)]
                  simp only
                  rw [hsk, finish_ok (rest_at mem v hv (q + n) hc)]
                  rw [hopt]; rfl
                · obtain ⟨o1, o2, _⟩ := decodeSeq_overrun hd hsc2 (by omega)
                  subst o2
                  have hmin2 : min (q + n + m) v.len = v.len := by omega
                  rw [hmin2] at hdec2
                  refine Or.inr ⟨0, n, n - 1, .stopOverrun hsc (by omega) (by rw [hdd, hsc2, o1]), by omega, ?_⟩
                  have hsk := seek_back v v.len m (Nat.le_refl _) hlen (by omega)
                  have e : v.len - m = q + (n - 1) := by omega
                  rw [e] at hsk
                  rw [endLoop_back hdec2 (Or.inr (by simp only [optLen]; omega)) (by simp only; omega)]
                  simp only
                  rw [hsk, finish_ok (rest_at mem v hv (q + (n - 1)) (by omega))]
                  rw [hopt]; rfl
              · left
                rw [if_neg hfit2] at hdec2
                obtain ⟨o1, o2, _⟩ := decodeSeq_overrun hd hsc2 (by omega)
                refine ⟨?_, by omega, .seq hsc (by omega) (by rw [hdd]; exact .here (by rw [hsc2, o1, o2]))⟩
                exact endLoop_error hdec2
        · -- beyond the text
          obtain ⟨o1, o2, _⟩ := decodeSeq_overrun hd hsc (by omega)
          subst o2
          have hmin : min (q + n) v.len = v.len := by omega
          rw [hmin] at hdec
          obtain ⟨f, hfu⟩ : ∃ f, fuel = f + 1 := ⟨fuel - 1, by omega⟩
          have hdec2 := decode_spec env hd mem v hv hlen v.len (Nat.le_refl _)
          rw [List.drop_eq_nil_of_le (by omega), decodeSeq_nil] at hdec2
          simp only at hdec2
          refine Or.inr ⟨n, 0, ((v.elems mem).drop q).length, ?_, by omega, ?_⟩
          · rw [o1]; exact .overrun (by rw [hsc, o1])
          · rw [endLoop_other hdec rfl, hfu]
            have := append_in_place mem (v.off + a) (v.off + q) n (by omega) hfit
            have e : v.off + q - (v.off + a) = q - a := by omega
            rw [e] at this
            rw [this]
            simp only
            rw [endLoop_none hdec2, finish_ok (rest_at mem v hv v.len (Nat.le_refl _))]
            have e2 : q - a + n = q + n - a := by omega
            have e3 : q + ((v.elems mem).drop q).length = v.len := by omega
            rw [e2, e3]; rfl
      · left
        rw [if_neg hfit] at hdec
        obtain ⟨o1, o2, _⟩ := decodeSeq_overrun hd hsc (by omega)
        refine ⟨?_, by omega, .here (by rw [hsc, o1, o2])⟩
        exact endLoop_error hdec

end Verif.Proofs.Ansi
