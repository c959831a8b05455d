import Verif.Proofs.AnsiSteps
import Verif.Proofs.AnsiSeq

/-! # The work of package `ansi` is linear -/

namespace Verif.Proofs.Ansi
open Verif.Go Verif.Model Verif.Model.Ansi Verif.Spec.Ansi
open Verif.Model.LB (Counted)

theorem scanReads_le (env : Env) : ∀ (rest : List Rune) (k : Nat) (first zero : Bool) (n : Nat),
    n + scanReads env k rest ≤ (seqScan env k first zero n rest).1 + 1 ∧
    ((seqScan env k first zero n rest).1 ≠ n + rest.length → n + scanReads env k rest ≤ (seqScan env k first zero n rest).1 ∧
      scanReads env k rest ≤ rest.length) ∧
    ((seqScan env k first zero n rest).2 ≠ .other → n + scanReads env k rest ≤ (seqScan env k first zero n rest).1) ∧
    (rest ≠ [] → n + 1 ≤ (seqScan env k first zero n rest).1)
  | [], k, first, zero, n => by
    refine ⟨by simp [scanReads, seqScan], fun h => by simp [seqScan] at h, fun h => ?_, fun h => absurd rfl h⟩
    exfalso; apply h
    simp only [seqScan]
    rfl
  | r :: rest, k, first, zero, n => by
    simp only [seqScan, scanReads, List.length_cons]
    split
    · split
      · refine ⟨by simp, fun _ => ⟨by simp, by omega⟩, fun _ => by simp, fun _ => by simp⟩
      · have := scanReads_le env rest (k + 1) first (if first && r != 0x30 then false else zero) (n + 1)
        have hb := seqScan_bounds env rest (k + 1) first (if first && r != 0x30 then false else zero) (n + 1)
        obtain ⟨h1, h2, h3, _⟩ := this
        refine ⟨by omega, fun h => ?_, fun h => ?_, fun _ => by omega⟩
        · have := h2 (by omega); omega
        · have := h3 h; omega
    · split
      · have := scanReads_le env rest 0 false zero (n + 1)
        have hb := seqScan_bounds env rest 0 false zero (n + 1)
        obtain ⟨h1, h2, h3, _⟩ := this
        refine ⟨by omega, fun h => ?_, fun h => ?_, fun _ => by omega⟩
        · have := h2 (by omega); omega
        · have := h3 h; omega
      · refine ⟨by simp, fun _ => ⟨by simp, by omega⟩, fun _ => by simp, fun _ => by simp⟩

theorem seqReads_some {env : Env} {l : List Rune} {n : Nat} {k : Kind} (h : decodeSeq env l = some (n, k)) :
    seqReads env l ≤ n + 1 ∧ (n ≠ l.length → seqReads env l ≤ n ∧ seqReads env l ≤ l.length) ∧
    (k ≠ .other → seqReads env l ≤ n) ∧ (n < l.length → 3 ≤ n) := by
  match l, h with
  | [], h => cases h
  | [_], h => cases h
  | a :: b :: rest, h =>
    simp only [decodeSeq] at h
    split at h
    · rename_i hab
      have hs := Option.some.inj h
      have := scanReads_le env rest 0 true true 2
      rw [hs] at this
      obtain ⟨h1, h2, h3, h4⟩ := this
      simp only [seqReads, List.length_cons]
      rw [if_pos hab.1, if_pos hab.2]
      refine ⟨h1, fun h => ?_, h3, fun hlt => h4 (fun e => ?_)⟩
      swap
      · subst e
        have hn : n = 2 := (congrArg Prod.fst hs).symm
        subst hn
        simp only [List.length_nil] at hlt
        omega
      have := h2 (by omega)
      omega
    · cases h

theorem seqReads_none {env : Env} {l : List Rune} (h : decodeSeq env l = none) :
    seqReads env l ≤ 1 ∨ (seqReads env l = 2 ∧ (2 ≤ textLen l ∨ l.length = 1)) := by
  match l, h with
  | [], h => simp [seqReads]
  | [a], h =>
    by_cases ha : a = esc <;> simp [seqReads, ha]
  | a :: b :: rest, h =>
    by_cases ha : a = esc
    · by_cases hb : b = openingBracket
      · simp only [decodeSeq] at h
        rw [if_pos ⟨ha, hb⟩] at h; cases h
      · simp [seqReads, textLen, ha, hb]
    · simp [seqReads, ha]

theorem textReads_eq : ∀ l : List Rune, (textReads l = textLen l + 1 ∧ textLen l = l.length) ∨
    (textReads l = textLen l + 2 ∧ ∃ m, l.drop (textLen l) = esc :: openingBracket :: m)
  | [] => by simp [textReads, textLen]
  | [_] => by simp [textReads, textLen]
  | a :: b :: rest => by
    by_cases ha : a = esc
    · by_cases hb : b = openingBracket
      · right
        subst ha; subst hb
        exact ⟨by simp [textReads, textLen], rest, by simp [textLen]⟩
      · rcases textReads_eq rest with ⟨h1, h2⟩ | ⟨h1, m, h2⟩
        · left
          simp only [textReads, textLen, List.length_cons]
          rw [if_pos ha, if_neg hb, if_pos ha, if_neg hb]
          omega
        · right
          simp only [textReads, textLen]
          rw [if_pos ha, if_neg hb, if_pos ha, if_neg hb]
          refine ⟨by omega, m, ?_⟩
          rw [Nat.add_comm 2]
          exact h2
    · rcases textReads_eq (b :: rest) with ⟨h1, h2⟩ | ⟨h1, m, h2⟩
      · left
        simp only [textReads, textLen, List.length_cons] at h2 ⊢
        rw [if_neg ha, if_neg ha]
        omega
      · right
        simp only [textReads, textLen]
        rw [if_neg ha, if_neg ha]
        refine ⟨by omega, m, ?_⟩
        rw [Nat.add_comm 1]
        exact h2

/-- What follows the text is a sequence, or nothing. -/
theorem textReads_cases (env : Env) (l : List Rune) : (textReads l = textLen l + 1 ∧ textLen l = l.length) ∨
    (textReads l = textLen l + 2 ∧ textLen l < l.length ∧ ∃ p, decodeSeq env (l.drop (textLen l)) = some p) := by
  rcases textReads_eq l with h | ⟨h1, m, h2⟩
  · exact Or.inl h
  · refine Or.inr ⟨h1, ?_, seqScan env 0 true true 2 m, ?_⟩
    · have := congrArg List.length h2
      simp only [List.length_drop, List.length_cons] at this
      omega
    · rw [h2]
      simp only [decodeSeq]
      rw [if_pos ⟨trivial, trivial⟩]

/-- What has been read of the rest already when a result is made. -/
def credit (env : Env) (l : List Rune) : Nat :=
  match decodeSeq env l with
  | some (n, _) => n + 1
  | none => match l with
    | [] => 0
    | r :: l2 => if r ≠ esc ∧ decodeSeq env l2 = some (l2.length + 1, .other) then l2.length else 0

theorem credit_some {env : Env} {l : List Rune} {n : Nat} {k : Kind} (h : decodeSeq env l = some (n, k)) :
    credit env l = n + 1 := by
  unfold credit; rw [h]

theorem credit_none {env : Env} {r : Rune} {l : List Rune} (h : decodeSeq env (r :: l) = none) :
    credit env (r :: l) = if r ≠ esc ∧ decodeSeq env l = some (l.length + 1, .other) then l.length else 0 := by
  unfold credit; rw [h]

theorem body_none {env : Env} {l : List Rune} (fuel : Nat) (h : decodeSeq env l = none) :
    bodyWork env fuel l = seqReads env l + textReads l + trailWork env fuel (l.drop (textLen l)) := by
  unfold bodyWork; rw [h]; exact (Nat.add_assoc _ _ _).symm

theorem body_some {env : Env} {l : List Rune} {q : Nat × Kind} (fuel : Nat) (h : decodeSeq env l = some q) :
    bodyWork env fuel l = seqReads env l := by
  unfold bodyWork; rw [h]; rfl

theorem trailWork_le {env : Env} (hd : AsciiDigits env) : ∀ (fuel : Nat) (l : List Rune),
    trailWork env fuel l ≤ 2 * l.length + 2
  | 0, _ => Nat.zero_le _
  | fuel + 1, l => by
    rw [trailWork]
    cases hs : decodeSeq env l with
    | none =>
      rcases seqReads_none hs with h | h <;> simp only [] <;> omega
    | some p =>
      obtain ⟨n, k⟩ := p
      obtain ⟨h1, h2, h3, h4⟩ := seqReads_some hs
      have hb := decodeSeq_bounds hs
      cases k with
      | start =>
        have := h3 (by simp)
        simp only []
        omega
      | stop =>
        have := h3 (by simp)
        have hin : n ≤ l.length := by
          apply Classical.byContradiction
          intro hc
          have := (decodeSeq_overrun hd hs (by omega)).2.1
          cases this
        simp only []
        have hr : seqReads env (l.drop n) ≤ (l.length - n) + 2 := by
          cases hs2 : decodeSeq env (l.drop n) with
          | none => rcases seqReads_none hs2 with h | h <;> omega
          | some p =>
            obtain ⟨m, k2⟩ := p
            have g := (seqReads_some hs2).1
            have g2 := decodeSeq_bounds hs2
            rw [List.length_drop] at g2
            obtain ⟨_, g3, _⟩ := seqReads_some hs2
            rw [List.length_drop] at g3
            by_cases e : m = l.length - n
            · omega
            · have := g3 e; omega
        omega
      | other =>
        simp only []
        have ih := trailWork_le hd fuel (l.drop n)
        rw [List.length_drop] at ih
        by_cases e : n = l.length
        · have e2 : trailWork env fuel (l.drop n) ≤ 1 := by
            rw [List.drop_eq_nil_of_le (by omega)]
            cases fuel with
            | zero => exact Nat.zero_le _
            | succ f => simp [trailWork, decodeSeq_nil, seqReads]
          omega
        · have := h2 e
          by_cases hlt : n < l.length
          · omega
          · have e2 : trailWork env fuel (l.drop n) ≤ 1 := by
              rw [List.drop_eq_nil_of_le (by omega)]
              cases fuel with
              | zero => exact Nat.zero_le _
              | succ f => simp [trailWork, decodeSeq_nil, seqReads]
            omega

/-- Before a sequence there is none. -/
theorem decodeSeq_before {env : Env} {r : Rune} {l : List Rune} {p : Nat × Kind} (h : decodeSeq env l = some p) :
    decodeSeq env (r :: l) = none := by
  match l, h with
  | [], h => cases h
  | [_], h => cases h
  | a :: b :: rest, h =>
    simp only [decodeSeq] at h ⊢
    split at h
    · rename_i hab
      rw [if_neg]
      rintro ⟨_, h2⟩
      rw [hab.1] at h2
      exact absurd h2 (by decide)
    · cases h

theorem trail_work {env : Env} (hd : AsciiDigits env) {l : List Rune} {t s d : Nat} (h : Trail env l t s d) :
    ∀ (fuel : Nat), (decodeSeq env l).isSome → l.drop d ≠ [] →
      trailWork env fuel l + 1 ≤ 3 * d + credit env (l.drop d) := by
  induction h with
  | done h => intro fuel hs; rw [h] at hs; cases hs
  | @start l n h =>
    intro fuel _ hne
    rw [List.drop_zero, credit_some h]
    cases fuel with
    | zero => simp [trailWork]
    | succ f =>
      rw [trailWork, h]
      have := (seqReads_some h).2.2.1 (by simp)
      simp only []
      omega
  | @other l n t s d h hn ht ih =>
    intro fuel _ hne
    rw [← List.drop_drop] at hne ⊢
    have hlt : n < l.length := by
      apply Classical.byContradiction
      intro hc
      apply hne
      rw [List.drop_eq_nil_of_le (as := l) (by omega)]
      exact List.drop_nil
    obtain ⟨h1, h2, h3, h4⟩ := seqReads_some h
    have h5 := (h2 (by omega)).1
    have h6 := h4 hlt
    cases fuel with
    | zero => simp only [trailWork]; omega
    | succ f =>
      rw [trailWork, h]
      simp only []
      cases hs : decodeSeq env (l.drop n) with
      | none =>
        have e : trailWork env f (l.drop n) ≤ 2 := by
          cases f with
          | zero => exact Nat.zero_le _
          | succ f =>
            rw [trailWork, hs]
            rcases seqReads_none hs with h | h <;> simp only [] <;> omega
        omega
      | some p =>
        have := ih f (by rw [hs]; rfl) hne
        omega
  | overrun h =>
    intro fuel _ hne
    exact absurd (List.drop_length) hne
  | @stop l n h hn hfit =>
    intro fuel _ hne
    have h1 := (seqReads_some h).2.2.1 (by simp)
    have hb := decodeSeq_bounds h
    cases fuel with
    | zero => simp only [trailWork]; omega
    | succ f =>
      rw [trailWork, h]
      simp only []
      cases hs : decodeSeq env (l.drop n) with
      | none => rcases seqReads_none hs with h | h <;> omega
      | some p =>
        obtain ⟨m, k⟩ := p
        have := (seqReads_some hs).1
        rw [credit_some hs]
        omega
  | @stopOverrun l n h hn hover =>
    intro fuel _ hne
    have h1 := (seqReads_some h).2.2.1 (by simp)
    have hb := decodeSeq_bounds h
    obtain ⟨q, t, q1, q2, q3, q4, q5⟩ := decodeSeq_sound hd h (by simp)
    have hkey : q.key ≠ esc := by
      intro e
      unfold kindOf keyKind at q5
      rw [e] at q5
      revert q5
      have : ∀ b, Kind.stop ≠ (if (esc == 0x73 || esc == 0x68) = true then Kind.start
        else if (esc == 0x75 || esc == 0x6C) = true then .stop
        else if (esc == 0x6D) = true then (if b = true then .stop else .start) else .other) := by decide
      exact this _
    have ed : l.drop (n - 1) = q.key :: t := by
      rw [q3, q4, runes_length, runes_eq]
      have e : 2 + q.first.length + (moreRunes q.more).length + 1 - 1 =
        ([esc, openingBracket] ++ q.first ++ moreRunes q.more).length := by simp; omega
      rw [e]
      rw [show (esc :: openingBracket :: (q.first ++ moreRunes q.more ++ q.key :: t) : List Rune) =
        ([esc, openingBracket] ++ q.first ++ moreRunes q.more) ++ q.key :: t by simp]
      exact List.drop_left
    have et : l.drop n = t := by
      rw [q3, q4]; exact List.drop_left
    rw [et] at hover
    have hs2 := (seqReads_some hover).2.1 (by omega)
    rw [ed, credit_none (decodeSeq_before hover)]
    rw [if_pos ⟨hkey, hover⟩]
    cases fuel with
    | zero => simp only [trailWork]; omega
    | succ f =>
      rw [trailWork, h]
      simp only []
      rw [et]
      omega

/-- All the work of one round. -/
theorem round_all {env : Env} (hd : AsciiDigits env) (fuel : Nat) (l : List Rune) :
    roundWork env fuel l + credit env l ≤ 3 * l.length + 3 := by
  have htrail : ∀ l : List Rune, decodeSeq env l = none →
      (textReads l + trailWork env fuel (l.drop (textLen l)) ≤ l.length + 2 ∧ textLen l = l.length) ∨
      (textReads l + trailWork env fuel (l.drop (textLen l)) ≤ textLen l + 2 + (2 * (l.length - textLen l) + 2) ∧
        textLen l + 2 ≤ l.length ∧ 0 < textLen l) := by
    intro l hn
    have hw := trailWork_le hd fuel (l.drop (textLen l))
    rw [List.length_drop] at hw
    rcases textReads_cases env l with ⟨h1, h2⟩ | ⟨h1, h2, p, h3⟩
    · left
      have e2 : trailWork env fuel (l.drop (textLen l)) ≤ 1 := by
        rw [h2, List.drop_length]
        cases fuel with
        | zero => exact Nat.zero_le _
        | succ f => simp [trailWork, decodeSeq_nil, seqReads]
      omega
    · right
      have hb := decodeSeq_bounds (n := p.1) (k := p.2) h3
      rw [List.length_drop] at hb
      have hp := textLen_pos hn (by intro e; subst e; simp at h2)
      omega
  rw [roundWork]
  cases hs : decodeSeq env l with
  | none =>
    simp only []
    rw [body_none fuel hs]
    have hr := seqReads_none hs
    have hc : credit env l = 0 ∨ (∃ r l2, l = r :: l2 ∧ r ≠ esc ∧
        decodeSeq env l2 = some (l2.length + 1, .other) ∧ credit env l = l2.length) := by
      cases l with
      | nil => exact Or.inl rfl
      | cons r l2 =>
        rw [credit_none hs]
        by_cases h : r ≠ esc ∧ decodeSeq env l2 = some (l2.length + 1, .other)
        · right; exact ⟨r, l2, rfl, h.1, h.2, if_pos h⟩
        · left; exact if_neg h
    rcases hc with hc | ⟨r, l2, rfl, hr1, hr2, hc⟩
    · rw [hc]
      rcases htrail l hs with h | h
      · cases l with
        | nil => simp [seqReads] at hr h ⊢; omega
        | cons r l2 => simp only [List.length_cons] at *; omega
      · omega
    · rw [hc]
      have h0 : seqReads env (r :: l2) = 1 := by
        match l2, hr2 with
        | [], h => cases h
        | [_], h => cases h
        | a :: b :: rest, h => simp [seqReads, hr1]
      rcases htrail (r :: l2) hs with h | h
      · simp only [List.length_cons] at *; omega
      · simp only [List.length_cons] at *; omega
  | some p =>
    obtain ⟨n, k⟩ := p
    obtain ⟨h1, h2, h3, h4⟩ := seqReads_some hs
    have hb := decodeSeq_bounds hs
    have hc : credit env l = n + 1 := credit_some hs
    have hr : seqReads env l ≤ l.length + 1 := by
      by_cases e : n = l.length
      · omega
      · have := h2 e; omega
    cases k with
    | other => simp only []; rw [body_some fuel hs]; omega
    | stop => simp only []; rw [body_some fuel hs]; omega
    | start =>
      simp only []
      have h5 := h3 (by simp)
      have hin : n ≤ l.length := by
        apply Classical.byContradiction
        intro hc
        have := (decodeSeq_overrun hd hs (by omega)).2.1
        cases this
      have hbody : bodyWork env fuel (l.drop n) ≤ 3 * (l.length - n) + 4 := by
        cases hs2 : decodeSeq env (l.drop n) with
        | none =>
          rw [body_none fuel hs2]
          have hr := seqReads_none hs2
          have hlen : (l.drop n).length = l.length - n := List.length_drop
          rcases htrail (l.drop n) hs2 with h | h
          · by_cases e : l.length - n = 0
            · have : l.drop n = [] := List.eq_nil_of_length_eq_zero (by omega)
              rw [this] at hr h ⊢
              simp [seqReads] at hr h ⊢
              omega
            · omega
          · omega
        | some p =>
          rw [body_some fuel hs2]
          obtain ⟨m, k2⟩ := p
          obtain ⟨g1, g2, _⟩ := seqReads_some hs2
          rw [List.length_drop] at g2
          by_cases e : m = l.length - n
          · omega
          · have := g2 e; omega
      omega

/-- The work of one round, when something is left. -/
theorem round_work {env : Env} (hd : AsciiDigits env) (fuel : Nat) {l : List Rune} {a b c d : Nat} {x : Bool}
    (h : Strip env l a x b c d) (hne : l.drop (a + d) ≠ []) :
    roundWork env fuel l + credit env l ≤ 3 * (a + d) + credit env (l.drop (a + d)) := by
  have htext : ∀ {l : List Rune} {t p d : Nat}, decodeSeq env l = none → Trail env (l.drop (textLen l)) t p d →
      l.drop (textLen l + d) ≠ [] →
      textReads l + trailWork env fuel (l.drop (textLen l)) + 1 ≤
        textLen l + 2 + (3 * d + credit env (l.drop (textLen l + d))) ∧ 0 < textLen l ∧ textLen l < l.length := by
    intro l t p d hn ht hne
    rcases textReads_cases env l with ⟨h1, h2⟩ | ⟨h1, h2, q, h3⟩
    · exfalso
      apply hne
      exact List.drop_eq_nil_of_le (by omega)
    · have := trail_work hd ht fuel (by rw [h3]; rfl) (by rw [List.drop_drop]; exact hne)
      rw [List.drop_drop] at this
      have hp := textLen_pos hn (by intro e; subst e; simp at h2)
      omega
  cases h with
  | plain h =>
    rw [Nat.zero_add] at hne ⊢
    rw [roundWork]
    cases h with
    | @other n hs hn =>
      have hc : credit env l = b + 1 := credit_some hs
      rw [hs]
      simp only []
      rw [body_some fuel hs]
      have hlt : b ≠ l.length := by
        intro e
        apply hne
        exact List.drop_eq_nil_of_le (by omega)
      have := (seqReads_some hs).2.1 hlt
      have := (seqReads_some hs).2.2.2 (by omega)
      omega
    | overrun hs => exact absurd List.drop_length hne
    | stop hs hn =>
      have hc : credit env l = c + 1 := credit_some hs
      rw [hs]
      simp only []
      rw [body_some fuel hs]
      have := (seqReads_some hs).2.2.1 (by simp)
      have := decodeSeq_bounds hs
      omega
    | start h0 _ _ => cases h0
    | @text t p d hs ht =>
      rw [hs]
      simp only []
      rw [body_none fuel hs]
      have h1 := htext hs ht hne
      have hr := seqReads_none hs
      have hc : credit env l = 0 := by
        match l, hne, hs, ht with
        | [], _, _, _ => rfl
        | r :: l2, hne, hs, ht =>
          rw [credit_none hs, if_neg]
          rintro ⟨hr1, hr2⟩
          have e : textLen (r :: l2) = 1 := by
            match l2, hr2 with
            | [], h => cases h
            | [_], h => cases h
            | u :: w :: rest, h =>
              simp only [decodeSeq] at h
              split at h
              · rename_i hab
                simp [textLen, hr1, hab.1, hab.2]
              · cases h
          rw [e] at ht hne
          have ht' : Trail env l2 t p d := ht
          cases ht' with
          | done h => rw [hr2] at h; cases h
          | start h => rw [hr2] at h; cases h
          | other h hn _ => rw [hr2] at h; cases h; omega
          | overrun h =>
            apply hne
            exact List.drop_eq_nil_of_le (by simp; omega)
          | stop h _ _ => rw [hr2] at h; cases h
          | stopOverrun h _ _ => rw [hr2] at h; cases h
      omega
  | styled hs ha h =>
    have hc : credit env l = a + 1 := credit_some hs
    have h1 := (seqReads_some hs).2.2.1 (by simp)
    have hb := decodeSeq_bounds hs
    rw [roundWork, hs]
    simp only []
    rw [← List.drop_drop] at hne ⊢
    generalize l.drop a = l' at h hne ⊢
    cases h with
    | @other n hs hn =>
      rw [body_some fuel hs]
      have hlt : b ≠ l'.length := by
        intro e
        apply hne
        exact List.drop_eq_nil_of_le (by omega)
      have := (seqReads_some hs).2.1 hlt
      omega
    | overrun hs => exact absurd List.drop_length hne
    | stop hs hn =>
      rw [body_some fuel hs]
      have := (seqReads_some hs).2.2.1 (by simp)
      omega
    | @start n h0 hs hn =>
      have := (seqReads_some hs).2.2.1 (by simp)
      rw [List.drop_zero]
      have hc2 : credit env l' = n + 1 := credit_some hs
      rw [body_some fuel hs]
      omega
    | @text t p d hs ht =>
      rw [body_none fuel hs]
      have h2 := htext hs ht hne
      have hr := seqReads_none hs
      omega

/-- The work of the loop of StripToken. -/
theorem stripTokenLoopC_steps (env : Env) (hd : AsciiDigits env) (mem : List Rune) :
    ∀ (fuel : Nat) (v : View), v.Valid mem → (v.len : Int) < 2 ^ 63 → v.len < fuel →
    (stripTokenLoopC env fuel mem v).steps + credit env (v.elems mem) ≤ 3 * v.len + 3 := by
  intro fuel
  induction fuel with
  | zero => intro v _ _ h; omega
  | succ fuel ih =>
    intro v hv hlen hf
    have hl := View.elems_length hv
    have hr := stripC_steps env hd mem v hv hlen
    have hall := round_all hd (v.len + 2) (v.elems mem)
    rw [hl] at hall
    have hres := stripC_res env mem v
    rw [stripTokenLoopC]
    rcases strip_spec env hd mem v hv hlen with ⟨h1, h2⟩ | ⟨a, x, b, c, d, h1, h2, h3, h4⟩
    · rw [h1] at hres
      rw [andThen_error hres]
      omega
    · have hb := strip_bounds h1
      rw [h4] at hres
      rw [andThen_ok hres]
      simp only []
      by_cases hz : v.len - (a + d) = 0
      · rw [if_pos (by simpa [result] using hz), of_steps]
        omega
      · rw [if_neg (by simpa [result] using hz)]
        have hp := strip_progress h1 (by intro h; rw [h] at hl; simp at hl; omega)
        have hval : View.Valid mem ⟨v.off + (a + d), v.len - (a + d)⟩ := by
          unfold View.Valid at hv ⊢; simp only; omega
        have hrem : (result v a x b c d).remainder = ⟨v.off + (a + d), v.len - (a + d)⟩ := rfl
        rw [hrem]
        have hih := ih ⟨v.off + (a + d), v.len - (a + d)⟩ hval (by simp only; omega) (by simp only; omega)
        rw [elems_drop] at hih
        have hw := round_work hd (v.len + 2) h1 (by
          intro e
          have := congrArg List.length e
          rw [List.length_drop, hl] at this
          simp at this
          omega)
        have hlast : ∀ (y : Counted (List StrippedToken × List Rune)) (t : StrippedToken),
            (y.andThen fun y => .of (.ok (t :: y.1, y.2))).steps = y.steps := by
          intro y t
          unfold Counted.andThen
          cases y.res <;> rfl
        rw [hlast]
        simp only [] at hih ⊢
        omega

theorem stripTokenC_steps (env : Env) (hd : AsciiDigits env) (mem : List Rune) (v : View) (hv : v.Valid mem)
    (hlen : (v.len : Int) < 2 ^ 63) : (stripTokenC env mem v).steps ≤ 3 * v.len + 3 := by
  have := stripTokenLoopC_steps env hd mem (v.len + 1) v hv hlen (by omega)
  unfold stripTokenC
  omega

end Verif.Proofs.Ansi
