import Verif.Proofs.AnsiLinear
import Verif.Proofs.AnsiCut

/-! # The number of runes in the results of StripToken -/

namespace Verif.Proofs.Ansi
open Verif.Go Verif.Model Verif.Model.Ansi Verif.Spec.Ansi

/-- A rune, then a sequence that is read beyond the end. -/
def OverKey (env : Env) (l : List Rune) : Prop :=
  ∃ r l2, l = r :: l2 ∧ r ≠ esc ∧ decodeSeq env l2 = some (l2.length + 1, .other)

theorem trail_size {env : Env} (hd : AsciiDigits env) {l : List Rune} {t s d : Nat} (h : Trail env l t s d) :
    t + s ≤ d ∨ (t + s = d + 1 ∧ d = l.length) ∨ (t + s = d + 1 ∧ OverKey env (l.drop d)) := by
  induction h with
  | done _ => exact Or.inl (Nat.le_refl _)
  | start _ => exact Or.inl (Nat.le_refl _)
  | other h1 h2 _ ih =>
    rw [List.length_drop, List.drop_drop] at ih
    rcases ih with h | ⟨h, h'⟩ | ⟨h, h'⟩
    · left; omega
    · right; left; omega
    · exact Or.inr (Or.inr ⟨by omega, h'⟩)
  | overrun _ => right; left; exact ⟨rfl, rfl⟩
  | stop _ _ _ => left; omega
  | @stopOverrun l n h hn hover =>
    have hb := decodeSeq_bounds h
    right; right
    refine ⟨by omega, ?_⟩
    obtain ⟨q, t, q1, q2, q3, q4, q5⟩ := decodeSeq_sound hd h (by simp)
    have hkey : q.key ≠ esc := by
      intro e
      unfold kindOf keyKind at q5
      rw [e] at q5
      revert q5
      have : ∀ b, Kind.stop ≠ (if (esc == 0x73 || esc == 0x68) = true then Kind.start
        else if (esc == 0x75 || esc == 0x6C) = true then .stop
        else if (esc == 0x6D) = true then (if b = true then .stop else .start) else .other) := by decide
      exact this _
    have ed : l.drop (n - 1) = q.key :: t := by
      rw [q3, q4, runes_length, runes_eq]
      have e : 2 + q.first.length + (moreRunes q.more).length + 1 - 1 =
        ([esc, openingBracket] ++ q.first ++ moreRunes q.more).length := by simp; omega
      rw [e]
      rw [show (esc :: openingBracket :: (q.first ++ moreRunes q.more ++ q.key :: t) : List Rune) =
        ([esc, openingBracket] ++ q.first ++ moreRunes q.more) ++ q.key :: t by simp]
      exact List.drop_left
    have et : l.drop n = t := by
      rw [q3, q4]; exact List.drop_left
    rw [et] at hover
    exact ⟨q.key, t, ed, hkey, hover⟩

theorem body_size {env : Env} (hd : AsciiDigits env) {s : Bool} {l : List Rune} {x : Bool} {b c d : Nat}
    (h : Body env s l x b c d) : c ≤ d ∨ (c = d + 1 ∧ d = l.length) ∨ (c = d + 1 ∧ OverKey env (l.drop d)) := by
  cases h with
  | other _ _ => exact Or.inl (Nat.le_refl _)
  | overrun _ => exact Or.inr (Or.inl ⟨rfl, rfl⟩)
  | stop _ _ => exact Or.inl (Nat.le_refl _)
  | start _ _ _ => exact Or.inl (Nat.le_refl _)
  | text _ h =>
    have h1 := trail_size hd h
    have h2 := textLen_le l
    rw [List.length_drop, List.drop_drop] at h1
    rcases h1 with h | ⟨h, h'⟩ | ⟨h, h'⟩
    · left; omega
    · right; left; omega
    · exact Or.inr (Or.inr ⟨by omega, h'⟩)

theorem strip_size {env : Env} (hd : AsciiDigits env) {l : List Rune} {a b c d : Nat} {x : Bool}
    (h : Strip env l a x b c d) :
    c ≤ d ∨ (c = d + 1 ∧ a + d = l.length) ∨ (c = d + 1 ∧ OverKey env (l.drop (a + d))) := by
  cases h with
  | plain h => simpa using body_size hd h
  | styled _ h2 h3 =>
    have h1 := body_size hd h3
    rw [List.length_drop, List.drop_drop] at h1
    rcases h1 with h | ⟨h, h'⟩ | ⟨h, h'⟩
    · exact Or.inl h
    · right; left; omega
    · exact Or.inr (Or.inr ⟨h, h'⟩)

/-- After such a rune nothing remains. -/
theorem strip_key {env : Env} {l : List Rune} {a b c d : Nat} {x : Bool}
    (h : Strip env l a x b c d) (hk : OverKey env l) : a + d = l.length := by
  obtain ⟨r, l2, rfl, hr, hover⟩ := hk
  have hn := decodeSeq_before (r := r) hover
  have ht : textLen (r :: l2) = 1 := by
    match l2, hover with
    | [], h => cases h
    | y :: rest, h =>
      rw [textLen, if_neg hr, decodeSeq_text h]
  cases h with
  | styled h1 _ _ => rw [hn] at h1; cases h1
  | plain h =>
    cases h with
    | other h _ => rw [hn] at h; cases h
    | overrun h => rw [hn] at h; cases h
    | stop h _ => rw [hn] at h; cases h
    | start h _ _ => cases h
    | text _ h =>
      rw [ht] at h ⊢
      simp only [List.drop_succ_cons, List.drop_zero] at h
      cases h with
      | done h => rw [hover] at h; cases h
      | start h => rw [hover] at h; cases h
      | other h1 h2 _ => rw [hover] at h1; cases h1; omega
      | overrun _ => simp only [List.length_cons]; omega
      | stop h _ _ => rw [hover] at h; cases h
      | stopOverrun h _ _ => rw [hover] at h; cases h

/-- The results of StripToken have at most two runes more than the token. -/
theorem run_size {env : Env} (hd : AsciiDigits env) {mem : List Rune} {v : View} {toks : List StrippedToken}
    (h : Run env mem v toks) (hv : v.Valid mem) :
    (toks.flatMap (tokRunes mem)).length ≤ v.len + 2 ∧
      (OverKey env (v.elems mem) → (toks.flatMap (tokRunes mem)).length ≤ v.len + 1) := by
  induction h with
  | @last v a x b c d h1 h2 h3 h4 =>
    rw [List.flatMap_cons, List.flatMap_nil, List.append_nil, tokRunes_length mem v h1 h3 h2]
    have : c ≤ d + 1 := by rcases strip_size hd h1 with h | ⟨h, _⟩ | ⟨h, _⟩ <;> omega
    exact ⟨by omega, fun _ => by omega⟩
  | @more v a x b c d toks h1 h2 h3 h4 h5 hr ih =>
    have hl := View.elems_length hv
    rw [List.flatMap_cons, List.length_append, tokRunes_length mem v h1 h3 h2]
    obtain ⟨i1, i2⟩ := ih (by unfold View.Valid at hv ⊢; simp only; omega)
    rw [elems_drop] at i2
    simp only at i1 i2
    refine ⟨?_, fun hk => ?_⟩
    · rcases strip_size hd h1 with h | ⟨h, h'⟩ | ⟨h, h'⟩
      · omega
      · omega
      · have := i2 h'; omega
    · have := strip_key h1 hk
      omega

end Verif.Proofs.Ansi
