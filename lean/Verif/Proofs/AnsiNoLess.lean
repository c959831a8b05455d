import Verif.Proofs.AnsiLinear

/-! # StripToken reads nearly all runes -/

namespace Verif.Proofs.Ansi
open Verif.Go Verif.Model Verif.Model.Ansi Verif.Spec.Ansi
open Verif.Model.LB (Counted)

theorem scanReads_ge (env : Env) : ∀ (rest : List Rune) (k : Nat) (first zero : Bool) (n : Nat),
    (seqScan env k first zero n rest).1 ≤ n + scanReads env k rest ∨
    ((seqScan env k first zero n rest).1 = n + scanReads env k rest + 1 ∧
      n + 4 ≤ (seqScan env k first zero n rest).1 + k)
  | [], k, first, zero, n => by left; simp [scanReads, seqScan]
  | r :: rest, k, first, zero, n => by
    simp only [seqScan, scanReads]
    split
    · split
      · right
        dsimp only
        exact ⟨by omega, by omega⟩
      · rcases scanReads_ge env rest (k + 1) first (if first && r != 0x30 then false else zero) (n + 1) with h | ⟨h, h2⟩
        · left; omega
        · right; omega
    · split
      · rcases scanReads_ge env rest 0 false zero (n + 1) with h | ⟨h, h2⟩
        · left; omega
        · right; omega
      · left; simp

/-- A sequence is read as a whole, but for one rune after three digits. -/
theorem seqReads_ge {env : Env} {l : List Rune} {n : Nat} {k : Kind} (h : decodeSeq env l = some (n, k)) :
    n ≤ seqReads env l ∨ (n = seqReads env l + 1 ∧ 6 ≤ n) := by
  match l, h with
  | [], h => cases h
  | [_], h => cases h
  | a :: b :: rest, h =>
    simp only [decodeSeq] at h
    split at h
    · rename_i hab
      have hs := Option.some.inj h
      have := scanReads_ge env rest 0 true true 2
      rw [hs] at this
      simp only [seqReads]
      rw [if_pos hab.1, if_pos hab.2]
      omega
    · cases h

theorem trailWork_ge {env : Env} {l : List Rune} {t s d : Nat} (h : Trail env l t s d) :
    ∀ (fuel : Nat), l.length < fuel → 5 * d ≤ 6 * trailWork env fuel l := by
  induction h with
  | done h => intro fuel hf; omega
  | start h => intro fuel hf; omega
  | @other l n t s d h hn ht ih =>
    intro fuel hf
    obtain ⟨f, rfl⟩ : ∃ f, fuel = f + 1 := ⟨fuel - 1, by omega⟩
    have hb := decodeSeq_bounds h
    have := ih f (by rw [List.length_drop]; omega)
    rw [trailWork, h]
    simp only []
    omega
  | @overrun l h =>
    intro fuel hf
    obtain ⟨f, rfl⟩ : ∃ f, fuel = f + 1 := ⟨fuel - 1, by omega⟩
    rw [trailWork, h]
    simp only []
    omega
  | @stop l n h hn hfit =>
    intro fuel hf
    obtain ⟨f, rfl⟩ : ∃ f, fuel = f + 1 := ⟨fuel - 1, by omega⟩
    have := seqReads_ge h
    rw [trailWork, h]
    simp only []
    omega
  | @stopOverrun l n h hn hover =>
    intro fuel hf
    obtain ⟨f, rfl⟩ : ∃ f, fuel = f + 1 := ⟨fuel - 1, by omega⟩
    have := seqReads_ge h
    rw [trailWork, h]
    simp only []
    omega

theorem body_ge {env : Env} {l : List Rune} {s x : Bool} {b c d : Nat} {fuel : Nat} (hf : l.length < fuel)
    (h : Body env s l x b c d) : 5 * d ≤ 6 * bodyWork env fuel l := by
  cases h with
  | other hs hn =>
    rw [body_some fuel hs]
    have := seqReads_ge hs
    omega
  | overrun hs =>
    rw [body_some fuel hs]
    have := seqReads_ge hs
    omega
  | stop hs hn =>
    rw [body_some fuel hs]
    have := seqReads_ge hs
    omega
  | start h0 hs hn => omega
  | text hs ht =>
    rw [body_none fuel hs]
    have := trailWork_ge ht fuel (by rw [List.length_drop]; omega)
    rcases textReads_eq l with ⟨h1, _⟩ | ⟨h1, _⟩ <;> omega

theorem round_ge {env : Env} {l : List Rune} {x : Bool} {a b c d : Nat} {fuel : Nat} (hf : l.length < fuel)
    (h : Strip env l a x b c d) : 5 * (a + d) ≤ 6 * roundWork env fuel l := by
  cases h with
  | plain h =>
    have := body_ge hf h
    rw [roundWork]
    split
    · rename_i n hs
      have h1 := seqReads_ge hs
      cases h with
      | other h _ => rw [hs] at h; cases h
      | overrun h => rw [hs] at h; cases h
      | stop h _ => rw [hs] at h; cases h
      | start h0 _ _ => cases h0
      | text h _ => rw [hs] at h; cases h
    · omega
  | styled hs ha h =>
    have h1 := seqReads_ge hs
    have h2 := body_ge (fuel := fuel) (by rw [List.length_drop]; omega) h
    rw [roundWork, hs]
    simp only []
    omega

/-- The loop on trailing sequences does all its work if it returns. -/
theorem endLoopC_ge (env : Env) (hd : AsciiDigits env) (mem : List Rune) (v : View) (hv : v.Valid mem)
    (hlen : (v.len : Int) < 2 ^ 63) (g0 : Option View) :
    ∀ (fuel q a : Nat), a ≤ q → q ≤ v.len → v.len - q + 2 ≤ fuel →
    ∀ y, endLoop env g0 fuel mem ⟨q, v⟩ (some (.view ⟨v.off + a, q - a⟩)) none = .ok y →
    trailWork env fuel ((v.elems mem).drop q) ≤
      (endLoopC env g0 fuel mem ⟨q, v⟩ (some (.view ⟨v.off + a, q - a⟩)) none).steps := by
  have hl := View.elems_length hv
  have hv' := hv
  unfold View.Valid at hv'
  intro fuel
  induction fuel with
  | zero => intro q a _ _ h; omega
  | succ fuel ih =>
    intro q a haq hq hf y hy
    have hlq : ((v.elems mem).drop q).length = v.len - q := by rw [List.length_drop, hl]
    have hdec := decode_spec env hd mem v hv hlen q hq
    have hst := decodeC_steps env hd mem v hv hlen q hq
    rw [trailWork]
    cases hsc : decodeSeq env ((v.elems mem).drop q) with
    | none =>
      rw [hsc] at hdec
      rw [endLoopC_none hdec, hst]
      exact Nat.le_refl _
    | some nk =>
      obtain ⟨n, k⟩ := nk
      have hb := decodeSeq_bounds hsc
      rw [hsc] at hdec
      simp only at hdec
      by_cases hfit : v.off + q + n ≤ mem.length
      · rw [if_pos hfit] at hdec
        cases k with
        | other =>
          have hap := append_in_place mem (v.off + a) (v.off + q) n (by omega) hfit
          have e : v.off + q - (v.off + a) = q - a := by omega
          rw [e] at hap
          have hc : appendCost mem (.view ⟨v.off + a, q - a⟩) ⟨v.off + q, n⟩ = n := by
            simp only [appendCost]
            rw [if_pos (by omega)]
          rw [endLoop_other hdec rfl, hap] at hy
          rw [endLoopC_other hdec rfl, hst, hap, hc]
          simp only [] at hy ⊢
          by_cases hin : n ≤ v.len - q
          · have hmin : min (q + n) v.len = q + n := by omega
            rw [hmin] at hy ⊢
            rw [show q - a + n = q + n - a by omega] at hy ⊢
            have := ih (q + n) a (by omega) (by omega) (by omega) y hy
            rw [List.drop_drop]
            omega
          · have hmin : min (q + n) v.len = v.len := by omega
            rw [hmin]
            obtain ⟨f, hfu⟩ : ∃ f, fuel = f + 1 := ⟨fuel - 1, by omega⟩
            have hdec2 := decode_spec env hd mem v hv hlen v.len (Nat.le_refl _)
            have hst2 := decodeC_steps env hd mem v hv hlen v.len (Nat.le_refl _)
            have e1 : (v.elems mem).drop v.len = [] := List.drop_eq_nil_of_le (by omega)
            rw [e1, decodeSeq_nil] at hdec2
            rw [e1] at hst2
            have e2 : ((v.elems mem).drop q).drop n = [] := List.drop_eq_nil_of_le (by omega)
            rw [hfu, endLoopC_none hdec2, hst2, e2, trailWork]
            simp only [decodeSeq_nil]
            omega
        | start =>
          rw [endLoopC_back hdec (Or.inl rfl), hst]
          exact Nat.le_refl _
        | stop =>
          have hin : n ≤ v.len - q := by
            apply Classical.byContradiction
            intro hc
            have := (decodeSeq_overrun hd hsc (by omega)).2.1
            cases this
          obtain ⟨f, hfu⟩ : ∃ f, fuel = f + 1 := ⟨fuel - 1, by omega⟩
          have hmin : min (q + n) v.len = q + n := by omega
          rw [hmin] at hdec
          have hc : q + n ≤ v.len := by omega
          have hdec2 := decode_spec env hd mem v hv hlen (q + n) hc
          have hst2 := decodeC_steps env hd mem v hv hlen (q + n) hc
          rw [endLoopC_stop hdec rfl, hst]
          simp only []
          rw [List.drop_drop, ← hst2]
          apply Nat.add_le_add_left
          rw [hfu]
          cases hsc2 : decodeSeq env ((v.elems mem).drop (q + n)) with
          | none =>
            rw [hsc2] at hdec2
            rw [endLoopC_none hdec2]
          | some mk =>
            obtain ⟨m, k2⟩ := mk
            rw [hsc2] at hdec2
            simp only at hdec2
            by_cases hfit2 : v.off + (q + n) + m ≤ mem.length
            · rw [if_pos hfit2] at hdec2
              rw [endLoopC_back hdec2 (Or.inr (by simp only [optLen]; omega))]
            · rw [if_neg hfit2] at hdec2
              rw [endLoopC_error hdec2]
      · rw [if_neg hfit] at hdec
        rw [endLoop_error hdec] at hy
        cases hy

theorem andThen_ok_res {α β : Type} {x : Counted α} {a : α} (h : x.res = .ok a) (f : α → Counted β) :
    (x.andThen f).res = (f a).res := by
  unfold Counted.andThen; rw [h]

theorem andThen_error_res {α β : Type} {x : Counted α} {e : Panic} (h : x.res = .error e) (f : α → Counted β) :
    (x.andThen f).res = .error e := by
  unfold Counted.andThen; rw [h]

theorem afterStart_res {env : Env} {mem : List Rune} {v w : View} {r r' : SliceReader} {g : Option View}
    (h : decodeText mem r = .ok (w, r')) :
    (afterStart env mem v (.inr (r, g))).res = endLoop env g (v.len + 2) mem r' (some (.view w)) none := by
  have e : afterStart env mem v (.inr (r, g)) = (decodeTextC mem r).andThen fun y =>
      endLoopC env g (v.len + 2) mem y.2 (some (.view y.1)) none := rfl
  rw [e, andThen_ok_res (a := (w, r')) (by rw [decodeTextC_res, h]), endLoopC_res]

theorem bodyC_ge (env : Env) (hd : AsciiDigits env) (mem : List Rune) (v : View) (hv : v.Valid mem)
    (hlen : (v.len : Int) < 2 ^ 63) (fuel a : Nat) (ha : a ≤ v.len) (y : StrippedToken × List Rune)
    (hy : ((startLoopC env mem (fuel + 1) ⟨a, v⟩ (optView v.off a)).andThen (afterStart env mem v)).res = .ok y) :
    bodyWork env (v.len + 2) ((v.elems mem).drop a) ≤
      ((startLoopC env mem (fuel + 1) ⟨a, v⟩ (optView v.off a)).andThen (afterStart env mem v)).steps := by
  have hl := View.elems_length hv
  have hdec := decode_spec env hd mem v hv hlen a ha
  have hst := decodeC_steps env hd mem v hv hlen a ha
  rw [bodyWork, startLoopC]
  cases hsc : decodeSeq env ((v.elems mem).drop a) with
  | none =>
    rw [hsc] at hdec
    have h1 := decodeC_res env mem ⟨a, v⟩
    rw [hdec] at h1
    have h2 : (startLoopC env mem (fuel + 1) ⟨a, v⟩ (optView v.off a)).res = .ok (.inr (⟨a, v⟩, optView v.off a)) := by
      rw [startLoopC_res]
      exact startLoop_none hdec
    have hy2 : (afterStart env mem v (.inr (⟨a, v⟩, optView v.off a))).res = .ok y := by
      rw [← andThen_ok_res h2]
      exact hy
    rw [startLoopC] at h2
    rw [andThen_ok h2, andThen_ok h1]
    simp only [of_steps, afterStart]
    have h3 := decodeTextC_res mem ⟨a, v⟩
    rw [decodeText_spec mem v hv hlen a ha] at h3
    rw [andThen_ok h3, hst, decodeTextC_steps mem v hv hlen a ha]
    have ht := textLen_le ((v.elems mem).drop a)
    rw [List.length_drop] at ht
    rw [afterStart_res (decodeText_spec mem v hv hlen a ha)] at hy2
    have := endLoopC_ge env hd mem v hv hlen (optView v.off a) (v.len + 2)
      (a + textLen ((v.elems mem).drop a)) a (by omega) (by omega) (by omega) y (by
        rw [show a + textLen ((v.elems mem).drop a) - a = textLen ((v.elems mem).drop a) by omega]
        exact hy2)
    rw [show a + textLen ((v.elems mem).drop a) - a = textLen ((v.elems mem).drop a) by omega] at this
    rw [List.drop_drop]
    simp only []
    omega
  | some nk =>
    simp only [Nat.add_zero]
    rw [← hst]
    cases e : (decodeANSISequenceC env mem ⟨a, v⟩).res with
    | error p =>
      have h2 : (startLoopC env mem (fuel + 1) ⟨a, v⟩ (optView v.off a)).res = .error p := by
        rw [startLoopC]
        exact andThen_error_res e _
      rw [andThen_error_res h2] at hy
      cases hy
    | ok z =>
      have hassoc : ∀ {α β γ : Type} (x : Counted α) (g : α → Counted β) (h : β → Counted γ),
          ((x.andThen g).andThen h).steps = (x.andThen fun a => (g a).andThen h).steps := by
        intro α β γ x g h
        unfold Counted.andThen
        cases e : x.res with
        | error e => rfl
        | ok a =>
          simp only []
          cases e2 : (g a).res with
          | error e => rfl
          | ok b => simp only []; omega
      rw [hassoc, andThen_ok e]
      exact Nat.le_add_right _ _

theorem stripC_ge (env : Env) (hd : AsciiDigits env) (mem : List Rune) (v : View) (hv : v.Valid mem)
    (hlen : (v.len : Int) < 2 ^ 63) (y : StrippedToken × List Rune) (hy : (stripANSIFromRunesC env mem v).res = .ok y) :
    roundWork env (v.len + 2) (v.elems mem) ≤ (stripANSIFromRunesC env mem v).steps := by
  have hl := View.elems_length hv
  have e : stripANSIFromRunesC env mem v =
      (startLoopC env mem 3 ⟨(0 : Nat), v⟩ (optView v.off 0)).andThen (afterStart env mem v) := rfl
  rw [e] at hy
  rw [e, roundWork]
  by_cases hstart : ∃ n, decodeSeq env (v.elems mem) = some (n, .start)
  · obtain ⟨a, hsc⟩ := hstart
    rw [hsc]
    simp only []
    have hin : a ≤ v.len := by
      apply Classical.byContradiction
      intro hc
      have := (decodeSeq_overrun hd hsc (by omega)).2.1
      cases this
    have hb := decodeSeq_bounds hsc
    have hdec := decode_spec env hd mem v hv hlen 0 (by omega)
    have hst := decodeC_steps env hd mem v hv hlen 0 (by omega)
    rw [List.drop_zero] at hdec hst
    rw [hsc] at hdec
    have hv' := hv
    unfold View.Valid at hv'
    simp only at hdec
    rw [if_pos (by omega), show min (0 + a) v.len = a by omega] at hdec
    have h1 := decodeC_res env mem ⟨(0 : Nat), v⟩
    rw [hdec] at h1
    have h3 : (startLoopC env mem 3 ⟨(0 : Nat), v⟩ (optView v.off 0)) =
        ⟨seqReads env (v.elems mem) + (startLoopC env mem 2 ⟨a, v⟩ (optView v.off a)).steps,
          (startLoopC env mem 2 ⟨a, v⟩ (optView v.off a)).res⟩ := by
      rw [startLoopC]
      unfold Counted.andThen
      rw [h1, hst]
      simp only []
      rw [if_neg (by simp), if_pos ⟨trivial, rfl⟩, optView_pos (by omega)]
      rfl
    rw [h3] at hy ⊢
    have h4 : ∀ (n : Nat) (x : Counted (StrippedToken ⊕ (SliceReader × Option View))),
        ((⟨n + x.steps, x.res⟩ : Counted _).andThen (afterStart env mem v)).steps =
          n + (x.andThen (afterStart env mem v)).steps ∧
        ((⟨n + x.steps, x.res⟩ : Counted _).andThen (afterStart env mem v)).res =
          (x.andThen (afterStart env mem v)).res := by
      intro n x
      unfold Counted.andThen
      cases x.res
      · exact ⟨rfl, rfl⟩
      · exact ⟨Nat.add_assoc _ _ _, rfl⟩
    rw [(h4 _ _).2] at hy
    rw [(h4 _ _).1]
    exact Nat.add_le_add_left (bodyC_ge env hd mem v hv hlen 1 a hin y hy) _
  · have h1 := bodyC_ge env hd mem v hv hlen 2 0 (by omega) y hy
    rw [List.drop_zero] at h1
    refine Nat.le_trans ?_ h1
    split
    · rename_i a h
      exact absurd ⟨a, h⟩ hstart
    · exact Nat.le_refl _

theorem stripTokenLoopC_ge (env : Env) (hd : AsciiDigits env) (mem : List Rune) :
    ∀ (fuel : Nat) (v : View), v.Valid mem → (v.len : Int) < 2 ^ 63 → v.len < fuel →
    ∀ y, (stripTokenLoopC env fuel mem v).res = .ok y → 5 * v.len ≤ 6 * (stripTokenLoopC env fuel mem v).steps := by
  intro fuel
  induction fuel with
  | zero => intro v _ _ h; omega
  | succ fuel ih =>
    intro v hv hlen hf y hy
    have hl := View.elems_length hv
    have hr := stripC_steps env hd mem v hv hlen
    have hres := stripC_res env mem v
    rw [stripTokenLoopC] at hy ⊢
    rcases strip_spec env hd mem v hv hlen with ⟨h1, h2⟩ | ⟨a, x, b, c, d, h1, h2, h3, h4⟩
    · rw [h1] at hres
      unfold Counted.andThen at hy
      rw [hres] at hy
      cases hy
    · have hb := strip_bounds h1
      have hw := round_ge (fuel := v.len + 2) (by omega) h1
      rw [h4] at hres
      have hge := stripC_ge env hd mem v hv hlen _ hres
      rw [andThen_ok hres]
      have hy2 : (if (result v a x b c d).remainder.len = 0 then
          (Counted.of (.ok ([result v a x b c d], mem)) : Counted (List StrippedToken × List Rune))
        else (stripTokenLoopC env fuel mem (result v a x b c d).remainder).andThen fun y =>
          .of (.ok (result v a x b c d :: y.1, y.2))).res = .ok y := by
        unfold Counted.andThen at hy
        rw [hres] at hy
        exact hy
      simp only []
      by_cases hz : v.len - (a + d) = 0
      · rw [if_pos (by simpa [result] using hz), of_steps]
        omega
      · rw [if_neg (by simpa [result] using hz)] at hy2 ⊢
        have hp := strip_progress h1 (by intro h; rw [h] at hl; simp at hl; omega)
        have hval : View.Valid mem ⟨v.off + (a + d), v.len - (a + d)⟩ := by
          unfold View.Valid at hv ⊢; simp only; omega
        have hrem : (result v a x b c d).remainder = ⟨v.off + (a + d), v.len - (a + d)⟩ := rfl
        rw [hrem] at hy2 ⊢
        have hin : ∃ z, (stripTokenLoopC env fuel mem ⟨v.off + (a + d), v.len - (a + d)⟩).res = .ok z := by
          unfold Counted.andThen at hy2
          cases e : (stripTokenLoopC env fuel mem ⟨v.off + (a + d), v.len - (a + d)⟩).res with
          | error p => rw [e] at hy2; cases hy2
          | ok z => exact ⟨z, rfl⟩
        obtain ⟨z, hz2⟩ := hin
        have hih := ih ⟨v.off + (a + d), v.len - (a + d)⟩ hval (by simp only; omega) (by simp only; omega) z hz2
        rw [andThen_ok hz2, of_steps]
        simp only [] at hih ⊢
        omega

theorem stripTokenC_ge (env : Env) (hd : AsciiDigits env) (mem : List Rune) (v : View) (hv : v.Valid mem)
    (hlen : (v.len : Int) < 2 ^ 63) (y : List StrippedToken × List Rune) (hy : stripToken env mem v = .ok y) :
    5 * v.len ≤ 6 * (stripTokenC env mem v).steps := by
  rw [← stripTokenC_res] at hy
  exact stripTokenLoopC_ge env hd mem (v.len + 1) v hv hlen (by omega) y hy

end Verif.Proofs.Ansi
