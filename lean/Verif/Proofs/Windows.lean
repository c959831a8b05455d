import Verif.Model.Windows
import Verif.Spec.Memory
import Verif.Proofs.Fields
import Verif.Proofs.Punctuator
import Verif.Proofs.Hyphenator

/-! # Lemmas on parts as windows of the array -/

namespace Verif.Proofs
open Verif.Go Verif.Model Verif.Model.Ansi Verif.Spec

theorem elems_sub (mem : List Rune) (v : View) (a b : Nat) (hb : b ≤ v.len) :
    View.elems mem ⟨v.off + a, b - a⟩ = ((v.elems mem).drop a).take (b - a) := by
  unfold View.elems
  rw [List.drop_take, List.take_take, List.drop_drop, Nat.min_eq_left (by omega)]

/-- Cutting the window does what cutting the list of its runes does. -/
theorem sub_of_slice {mem : List Rune} {v : View} {a b : Nat} {l : List Rune} (hv : v.Valid mem)
    (h : slice (v.elems mem) a b = .ok l) :
    v.sub mem a b = .ok ⟨v.off + a, b - a⟩ ∧ View.elems mem ⟨v.off + a, b - a⟩ = l ∧ a ≤ b ∧ b ≤ v.len := by
  have hl := View.elems_length hv
  unfold View.Valid at hv
  unfold slice at h
  split at h
  · rename_i hc
    rw [hl] at hc
    have h' := Except.ok.inj h
    simp only [Int.toNat_natCast] at h'
    refine ⟨?_, by rw [elems_sub mem v a b (by omega)]; exact h', by omega, by omega⟩
    unfold View.sub
    rw [if_pos (by omega)]
    simp
  · cases h

theorem inOrder_snoc {v : View} {ps : List View} {b c : Nat} (h : InOrder v ps) (hb : b ≤ c) (hc : c ≤ v.len)
    (hp : ∀ p ∈ ps, p.off + p.len ≤ v.off + b) : InOrder v (ps ++ [⟨v.off + b, c - b⟩]) := by
  refine ⟨?_, ?_⟩
  · intro p hpm
    rcases List.mem_append.mp hpm with h1 | h1
    · exact h.1 p h1
    · simp only [List.mem_singleton] at h1
      subst h1
      exact ⟨by simp, by simp; omega⟩
  · refine List.pairwise_append.mpr ⟨h.2, by simp, ?_⟩
    intro p hpm q hq
    simp only [List.mem_singleton] at hq
    subst hq
    exact hp p hpm

/-! ## FieldsFunc -/

theorem fieldsLoopW_sim (f : Rune → Bool) (mem : List Rune) (v : View) (hv : v.Valid mem) :
    ∀ (rest : List Rune) (e : Nat) (start : Int) (ws : List View) (ts : List (List Rune)) (out : List (List Rune))
      (last : Int),
      e + rest.length = v.len → start ≤ e → InOrder v ws → ts = ws.map (View.elems mem) →
      (∀ p ∈ ws, (p.off + p.len : Int) ≤ v.off + (if start ≥ 0 then start else e)) →
      fieldsLoop f (v.elems mem) rest e start ts = .ok (out, last) →
      ∃ ws', fieldsLoopW f mem v rest e start ws = .ok (ws', last) ∧ out = ws'.map (View.elems mem) ∧
        InOrder v ws' ∧ last ≤ v.len ∧
        ∀ p ∈ ws', (p.off + p.len : Int) ≤ v.off + (if last ≥ 0 then last else v.len) := by
  intro rest
  induction rest with
  | nil =>
    intro e start ws ts out last he hs ho ht hp h
    simp only [fieldsLoop] at h
    cases h
    refine ⟨ws, rfl, ht, ho, by simp at he; omega, ?_⟩
    intro p hpm
    have := hp p hpm
    split
    · rename_i hge; rwa [if_pos hge] at this
    · rename_i hge; rw [if_neg hge] at this; simp at he; omega
  | cons r rest ih =>
    intro e start ws ts out last he hs ho ht hp h
    simp only [List.length_cons] at he
    simp only [fieldsLoop, fieldsLoopW] at h ⊢
    by_cases hr : f r = true
    · simp only [hr, if_true] at h ⊢
      by_cases hge : start ≥ 0
      · rw [if_pos hge] at h ⊢
        obtain ⟨a, rfl⟩ := Int.eq_ofNat_of_zero_le hge
        cases hsl : slice (v.elems mem) (a : Int) (e : Int) with
        | error x => rw [hsl] at h; cases h
        | ok l =>
          obtain ⟨g1, g2, g3, g4⟩ := sub_of_slice hv hsl
          rw [hsl] at h
          rw [g1]
          simp only [ok_bind] at h ⊢
          have hneg := compl_neg hge
          refine ih _ _ _ _ _ _ (by omega) (by omega) ?_ ?_ ?_ h
          · refine inOrder_snoc ho g3 g4 fun p hpm => ?_
            have := hp p hpm
            rw [if_pos hge] at this
            omega
          · rw [ht, List.map_append, List.map_singleton, g2]
          · intro p hpm
            rw [if_neg (by omega)]
            rcases List.mem_append.mp hpm with h1 | h1
            · have := hp p h1
              rw [if_pos hge] at this
              omega
            · simp only [List.mem_singleton] at h1
              subst h1
              simp only; omega
      · rw [if_neg hge] at h ⊢
        refine ih _ _ _ _ _ _ (by omega) (by omega) ho ht ?_ h
        intro p hpm
        have := hp p hpm
        rw [if_neg hge] at this ⊢
        omega
    · have hr' : f r = false := by simpa using hr
      simp only [hr', Bool.false_eq_true, if_false] at h ⊢
      by_cases hlt : start < 0
      · rw [if_pos hlt] at h ⊢
        refine ih _ _ _ _ _ _ (by omega) (by omega) ho ht ?_ h
        intro p hpm
        have := hp p hpm
        rw [if_neg (by omega)] at this
        rw [if_pos (by omega)]
        omega
      · rw [if_neg hlt] at h ⊢
        refine ih _ _ _ _ _ _ (by omega) (by omega) ho ht ?_ h
        intro p hpm
        have := hp p hpm
        rw [if_pos (by omega)] at this ⊢
        omega

/-- FieldsFunc: the parts are windows in order, whose runes are the parts of the runes. -/
theorem fieldsFuncW_spec (f : Rune → Bool) (mem : List Rune) (v : View) (hv : v.Valid mem) :
    ∃ ws, fieldsFuncW mem v f = .ok ws ∧ fieldsFunc (v.elems mem) f = .ok (ws.map (View.elems mem)) ∧
      InOrder v ws := by
  have hl := View.elems_length hv
  have href := fieldsFunc_ref (v.elems mem) f
  cases hloop : fieldsLoop f (v.elems mem) (v.elems mem) 0 (-1) [] with
  | error x => rw [fieldsFunc_def, hloop] at href; cases href
  | ok p =>
    obtain ⟨out, last⟩ := p
    obtain ⟨ws, h1, h2, h3, h4, h5⟩ := fieldsLoopW_sim f mem v hv (v.elems mem) 0 (-1) [] [] out last
      (by omega) (by omega) ⟨by simp, by simp⟩ rfl (by simp) hloop
    unfold fieldsFuncW
    rw [fieldsFunc_def, hloop] at href ⊢
    rw [h1]
    simp only [ok_bind, fieldsEnd, hl] at href ⊢
    by_cases hge : last ≥ 0
    · rw [if_pos hge] at href ⊢
      rw [if_pos hge]
      obtain ⟨a, rfl⟩ := Int.eq_ofNat_of_zero_le hge
      cases hsl : slice (v.elems mem) (a : Int) (v.len : Int) with
      | error x => rw [hsl] at href; cases href
      | ok l =>
        obtain ⟨g1, g2, g3, g4⟩ := sub_of_slice hv hsl
        rw [g1]
        refine ⟨_, rfl, ?_, inOrder_snoc h3 g3 g4 fun p hp => ?_⟩
        · simp [h2, g2]
        · have := h5 p hp
          rw [if_pos hge] at this
          omega
    · rw [if_neg hge]
      rw [if_neg hge]
      exact ⟨ws, rfl, by simp [h2], h3⟩

/-! ## breakAtFunc -/

/-- The parts that are windows. -/
def windowsOf (ss : List Sl) : List View := ss.filterMap fun s => match s with
  | .view v => some v
  | .fresh _ => none

theorem breakAtLoopW_sim (f : Rune → Bool) (mem : List Rune) (v : View) (hv : v.Valid mem) :
    ∀ (rest : List Rune) (i prev : Nat) (ws : List Sl) (ts : List (List Rune)) (out : List (List Rune))
      (last : Nat),
      i + rest.length = v.len → prev ≤ i → InOrder v (windowsOf ws) → ts = ws.map (Sl.elems mem) →
      (∀ p ∈ windowsOf ws, p.off + p.len ≤ v.off + prev) →
      breakAtLoop f (v.elems mem) rest i prev ts = .ok (out, last) →
      ∃ ws', breakAtLoopW f mem v rest i prev ws = .ok (ws', last) ∧ out = ws'.map (Sl.elems mem) ∧
        InOrder v (windowsOf ws') ∧ last ≤ v.len ∧ ∀ p ∈ windowsOf ws', p.off + p.len ≤ v.off + last := by
  intro rest
  have hl := View.elems_length hv
  induction rest with
  | nil =>
    intro i prev ws ts out last he hs ho ht hp h
    simp only [breakAtLoop] at h
    cases h
    exact ⟨ws, rfl, ht, ho, by simp at he; omega, hp⟩
  | cons r rest ih =>
    intro i prev ws ts out last he hs ho ht hp h
    simp only [List.length_cons] at he
    simp only [breakAtLoop, breakAtLoopW, hl] at h ⊢
    by_cases hr : f r = true
    · simp only [hr, if_true] at h ⊢
      by_cases hge : i > 0 ∧ prev < v.len ∧ prev < i
      · rw [if_pos hge] at h ⊢
        cases hsl : slice (v.elems mem) (prev : Int) (i : Int) with
        | error x => rw [hsl] at h; cases h
        | ok l =>
          obtain ⟨g1, g2, g3, g4⟩ := sub_of_slice hv hsl
          rw [hsl] at h
          rw [g1]
          simp only [ok_bind] at h ⊢
          have hw : windowsOf (ws ++ [Sl.view ⟨v.off + prev, i - prev⟩] ++ [.fresh [r]]) =
              windowsOf ws ++ [⟨v.off + prev, i - prev⟩] := by simp [windowsOf]
          refine ih _ _ _ _ _ _ (by omega) (by omega) ?_ ?_ ?_ h
          · rw [hw]
            exact inOrder_snoc ho g3 g4 hp
          · simp [ht, Sl.elems, g2]
          · intro p hpm
            rw [hw] at hpm
            rcases List.mem_append.mp hpm with h1 | h1
            · have := hp p h1
              omega
            · simp only [List.mem_singleton] at h1
              subst h1
              simp only; omega
      · rw [if_neg hge] at h ⊢
        have hw : windowsOf (ws ++ [.fresh [r]]) = windowsOf ws := by simp [windowsOf]
        refine ih _ _ _ _ _ _ (by omega) (by omega) (by rw [hw]; exact ho) (by simp [ht, Sl.elems]) ?_ h
        intro p hpm
        rw [hw] at hpm
        have := hp p hpm
        omega
    · have hr' : f r = false := by simpa using hr
      simp only [hr', Bool.false_eq_true, if_false] at h ⊢
      exact ih _ _ _ _ _ _ (by omega) (by omega) ho ht hp h

/-- breakAtFunc: the parts are windows in order and new slices, whose runes are the parts of the runes. -/
theorem breakAtFuncW_spec (f : Rune → Bool) (mem : List Rune) (v : View) (hv : v.Valid mem) :
    ∃ ws, breakAtFuncW mem v f = .ok ws ∧ breakAtFunc (v.elems mem) f = .ok (ws.map (Sl.elems mem)) ∧
      InOrder v (windowsOf ws) := by
  have hl := View.elems_length hv
  have href := breakAtFunc_ref (v.elems mem) f
  cases hloop : breakAtLoop f (v.elems mem) (v.elems mem) 0 0 [] with
  | error x => rw [breakAtFunc_def, hloop] at href; cases href
  | ok p =>
    obtain ⟨out, last⟩ := p
    obtain ⟨ws, h1, h2, h3, h4, h5⟩ := breakAtLoopW_sim f mem v hv (v.elems mem) 0 0 [] [] out last
      (by omega) (by omega) ⟨by simp [windowsOf], by simp [windowsOf]⟩ rfl (by simp [windowsOf]) hloop
    unfold breakAtFuncW
    rw [breakAtFunc_def, hloop] at href ⊢
    rw [h1]
    simp only [ok_bind, breakAtEnd, hl] at href ⊢
    by_cases hge : last < v.len
    · rw [if_pos hge] at href ⊢
      rw [if_pos hge]
      cases hsl : slice (v.elems mem) (last : Int) (v.len : Int) with
      | error x => rw [hsl] at href; cases href
      | ok l =>
        obtain ⟨g1, g2, g3, g4⟩ := sub_of_slice hv hsl
        rw [g1]
        refine ⟨_, rfl, ?_, ?_⟩
        · simp [h2, g2, Sl.elems]
        · have hw : windowsOf (ws ++ [Sl.view ⟨v.off + last, v.len - last⟩]) =
              windowsOf ws ++ [⟨v.off + last, v.len - last⟩] := by simp [windowsOf]
          rw [hw]
          exact inOrder_snoc h3 g3 g4 h5
    · rw [if_neg hge]
      rw [if_neg hge]
      exact ⟨ws, rfl, by simp [h2], h3⟩

/-- A part that is a window has no separator; the other parts are one separator. -/
def KindOf (f : Rune → Bool) (mem : List Rune) : Sl → Prop
  | .view p => ∀ r ∈ p.elems mem, f r = false
  | .fresh l => ∃ r, l = [r] ∧ f r = true

theorem breakAtLoopW_kind (f : Rune → Bool) (mem : List Rune) (v : View) (hv : v.Valid mem) :
    ∀ (rest pre cur : List Rune) (ws ws' : List Sl) (last : Nat), v.elems mem = pre ++ cur ++ rest →
      (∀ r ∈ cur, f r = false) → (∀ s ∈ ws, KindOf f mem s) →
      breakAtLoopW f mem v rest (pre.length + cur.length) pre.length ws = .ok (ws', last) →
      (∀ s ∈ ws', KindOf f mem s) ∧ ∀ r ∈ (v.elems mem).drop last, f r = false := by
  intro rest
  have hl := View.elems_length hv
  induction rest with
  | nil =>
    intro pre cur ws ws' last he hc hk h
    simp only [breakAtLoopW] at h
    cases h
    refine ⟨hk, ?_⟩
    rw [he]
    simpa using hc
  | cons r rest ih =>
    intro pre cur ws ws' last he hc hk h
    simp only [breakAtLoopW] at h
    by_cases hr : f r = true
    · simp only [hr, if_true] at h
      have e1 : pre.length + cur.length + 1 = (pre ++ cur ++ [r]).length + ([] : List Rune).length := by simp; omega
      have e2 : pre.length + cur.length + 1 = (pre ++ cur ++ [r]).length := by simp; omega
      by_cases hge : pre.length + cur.length > 0 ∧ pre.length < v.len ∧ pre.length < pre.length + cur.length
      · rw [if_pos hge] at h
        have hsl : slice (v.elems mem) (pre.length : Int) ((pre.length + cur.length : Nat) : Int) =
            .ok (((v.elems mem).drop pre.length).take (pre.length + cur.length - pre.length)) :=
          slice_ok (by omega) (by rw [he]; simp)
        obtain ⟨g1, g2, g3, g4⟩ := sub_of_slice hv hsl
        rw [g1] at h
        simp only [ok_bind] at h
        rw [e1] at h
        conv at h => lhs; arg 6; rw [← e1, e2]
        refine ih (pre ++ cur ++ [r]) [] _ _ _ (by simp [he]) (by simp) ?_ h
        intro s hs
        rcases List.mem_append.mp hs with hs | hs
        · rcases List.mem_append.mp hs with hs | hs
          · exact hk s hs
          · simp only [List.mem_singleton] at hs
            subst hs
            simp only [KindOf]
            rw [g2, he]
            simpa using hc
        · simp only [List.mem_singleton] at hs
          subst hs
          exact ⟨r, rfl, hr⟩
      · rw [if_neg hge] at h
        rw [e1] at h
        conv at h => lhs; arg 6; rw [← e1, e2]
        refine ih (pre ++ cur ++ [r]) [] _ _ _ (by simp [he]) (by simp) ?_ h
        intro s hs
        rcases List.mem_append.mp hs with hs | hs
        · exact hk s hs
        · simp only [List.mem_singleton] at hs
          subst hs
          exact ⟨r, rfl, hr⟩
    · have hr' : f r = false := by simpa using hr
      simp only [hr', Bool.false_eq_true, if_false] at h
      refine ih pre (cur ++ [r]) _ _ _ (by simp [he]) ?_ hk (by simpa [Nat.add_assoc] using h)
      intro x hx
      rcases List.mem_append.mp hx with hx | hx
      · exact hc x hx
      · simp only [List.mem_singleton] at hx
        rw [hx, hr']

/-- breakAtFunc: the separators, and only they, are new slices. -/
theorem breakAtFuncW_kind (f : Rune → Bool) (mem : List Rune) (v : View) (hv : v.Valid mem) (ws : List Sl)
    (h : breakAtFuncW mem v f = .ok ws) : ∀ s ∈ ws, KindOf f mem s := by
  unfold breakAtFuncW at h
  cases hloop : breakAtLoopW f mem v (v.elems mem) 0 0 [] with
  | error x => rw [hloop] at h; cases h
  | ok p =>
    obtain ⟨out, last⟩ := p
    obtain ⟨g1, g2⟩ := breakAtLoopW_kind f mem v hv (v.elems mem) [] [] [] out last rfl (by simp) (by simp) hloop
    rw [hloop] at h
    simp only [ok_bind] at h
    split at h
    · rename_i hlt
      have hsl : slice (v.elems mem) (last : Int) (v.len : Int) = .ok (((v.elems mem).drop last).take (v.len - last)) :=
        slice_ok (by omega) (by rw [View.elems_length hv]; exact Nat.le_refl _)
      obtain ⟨k1, k2, _, _⟩ := sub_of_slice hv hsl
      rw [k1] at h
      cases h
      intro s hs
      rcases List.mem_append.mp hs with hs | hs
      · exact g1 s hs
      · simp only [List.mem_singleton] at hs
        subst hs
        simp only [KindOf]
        rw [k2]
        exact fun r hr => g2 r (List.mem_of_mem_take hr)
    · cases h
      exact g1

/-! ## BreakWord of the hyphenator -/

theorem splitLoopW_sim (o : HOptions) (mem : List Rune) (v : View) (hv : v.Valid mem) (n : Nat) :
    ∀ (ps : List Int) (i prev : Nat) (ws : List View) (ts out : List (List Rune)) (last : Nat),
      prev ≤ i → InOrder v ws → ts = ws.map (View.elems mem) →
      (∀ p ∈ ws, p.off + p.len ≤ v.off + prev) →
      splitLoop o (v.elems mem) n ps i prev ts = .ok (out, last) →
      ∃ ws', splitLoopW o mem v n ps i prev ws = .ok (ws', last) ∧ out = ws'.map (View.elems mem) ∧
        InOrder v ws' ∧ ∀ p ∈ ws', p.off + p.len ≤ v.off + last := by
  intro ps
  induction ps with
  | nil =>
    intro i prev ws ts out last hs ho ht hp h
    simp only [splitLoop] at h
    cases h
    exact ⟨ws, rfl, ht, ho, fun p hpm => by have := hp p hpm; omega⟩
  | cons pos rest ih =>
    intro i prev ws ts out last hs ho ht hp h
    simp only [splitLoop, splitLoopW] at h ⊢
    split at h
    · rename_i hc
      rw [if_pos hc]
      exact ih _ _ _ _ _ _ (by omega) ho ht hp h
    · rename_i hc
      rw [if_neg hc]
      split at h
      · rename_i hc
        rw [if_pos hc]
        exact ih _ _ _ _ _ _ (by omega) ho ht hp h
      · rename_i hc
        rw [if_neg hc]
        cases hsl : slice (v.elems mem) (prev : Int) (i : Int) with
        | error x => rw [hsl] at h; cases h
        | ok l =>
          obtain ⟨g1, g2, g3, g4⟩ := sub_of_slice hv hsl
          rw [hsl] at h
          rw [g1]
          simp only [ok_bind] at h ⊢
          refine ih _ _ _ _ _ _ (by omega) ?_ ?_ ?_ h
          · exact inOrder_snoc ho g3 g4 fun p hpm => by have := hp p hpm; omega
          · rw [ht, List.map_append, List.map_singleton, g2]
          · intro p hpm
            rcases List.mem_append.mp hpm with h1 | h1
            · have := hp p h1
              omega
            · simp only [List.mem_singleton] at h1
              subst h1
              simp only; omega

theorem splitAtPositionsW_spec (o : HOptions) (mem : List Rune) (v : View) (hv : v.Valid mem) (n : Nat)
    (ps : List Int) (out : List (List Rune)) (h : splitAtPositions o (v.elems mem) n ps = .ok out) :
    ∃ ws, splitAtPositionsW o mem v n ps = .ok ws ∧ out = ws.map (View.elems mem) ∧ InOrder v ws := by
  have hl := View.elems_length hv
  rw [splitAtPositions_def] at h
  cases hloop : splitLoop o (v.elems mem) n ps 0 0 [] with
  | error x => rw [hloop] at h; cases h
  | ok p =>
    obtain ⟨ts, last⟩ := p
    obtain ⟨ws, h1, h2, h3, h4⟩ := splitLoopW_sim o mem v hv n ps 0 0 [] [] ts last
      (by omega) ⟨by simp, by simp⟩ rfl (by simp) hloop
    rw [hloop] at h
    unfold splitAtPositionsW
    rw [h1]
    simp only [ok_bind, splitEnd, hl] at h ⊢
    cases hsl : slice (v.elems mem) (last : Int) (v.len : Int) with
    | error x => rw [hsl] at h; cases h
    | ok l =>
      obtain ⟨g1, g2, g3, g4⟩ := sub_of_slice hv hsl
      rw [hsl] at h
      rw [g1]
      cases h
      exact ⟨_, rfl, by simp [h2, g2], inOrder_snoc h3 g3 g4 h4⟩

theorem hyphenatorBreakWordW_spec (env : Env) (dict : Dictionary) (o : HOptions) (hr : 0 ≤ o.minRight)
    (mem : List Rune) (v : View) (hv : v.Valid mem) :
    ∃ ws, hyphenatorBreakWordW env dict o mem v = .ok ws ∧
      hyphenatorBreakWord env dict o (v.elems mem) = .ok (ws.map (View.elems mem)) ∧ InOrder v ws := by
  have hl := View.elems_length hv
  obtain ⟨cs, h, _⟩ := breakWord_cutAt env dict o hr (v.elems mem)
  rw [h]
  unfold hyphenatorBreakWord at h
  unfold hyphenatorBreakWordW
  simp only [hl] at h ⊢
  split at h
  · rename_i hc
    rw [if_pos hc]
    refine ⟨[v], rfl, h.symm, ?_, by simp⟩
    intro p hp
    simp only [List.mem_singleton] at hp
    subst hp
    exact ⟨Nat.le_refl _, Nat.le_refl _⟩
  · rename_i hc
    rw [if_neg hc]
    cases he : dict.exceptions.get (v.elems mem) with
    | some bp =>
      simp only [he] at h ⊢
      obtain ⟨ws, h1, h2, h3⟩ := splitAtPositionsW_spec o mem v hv _ _ _ h
      exact ⟨ws, h1, by rw [h2], h3⟩
    | none =>
      simp only [he] at h ⊢
      cases h1 : patternLoop env dict.patterns (v.elems mem) v.len 0 (List.replicate 30 0) with
      | error x => rw [h1] at h; cases h
      | ok q1 =>
        rw [h1] at h
        simp only [ok_bind] at h ⊢
        cases h2 : slice q1 1 ((q1.length : Int) - 1) with
        | error x => rw [h2] at h; cases h
        | ok q2 =>
          rw [h2] at h
          simp only [ok_bind] at h ⊢
          cases h3 : clearEdges v.len q2 with
          | error x => rw [h3] at h; cases h
          | ok q3 =>
            rw [h3] at h
            simp only [ok_bind] at h ⊢
            obtain ⟨ws, g1, g2, g3⟩ := splitAtPositionsW_spec o mem v hv _ _ _ h
            exact ⟨ws, g1, by rw [g2], g3⟩

/-! ## Writing to windows -/

theorem elems_congr {mem mem' : List Rune} {q : View}
    (h : ∀ i, q.off ≤ i → i < q.off + q.len → mem'[i]? = mem[i]?) : q.elems mem' = q.elems mem := by
  unfold View.elems
  apply List.ext_getElem?
  intro i
  rw [List.getElem?_take, List.getElem?_take]
  split
  · rw [List.getElem?_drop, List.getElem?_drop]
    exact h _ (by omega) (by omega)
  · rfl

theorem elems_sameOutside {mem mem' : List Rune} {p q : View} (h : SameOutside p mem mem')
    (hd : p.off + p.len ≤ q.off ∨ q.off + q.len ≤ p.off) : q.elems mem' = q.elems mem :=
  elems_congr fun i h1 h2 => h.2 i (by omega)

/-- Two windows at different places of a list in order do not overlap. -/
theorem inOrder_disjoint {v : View} {ps : List View} (h : InOrder v ps) {i j : Nat} {p q : View}
    (hi : ps[i]? = some p) (hj : ps[j]? = some q) (hij : i ≠ j) :
    p.off + p.len ≤ q.off ∨ q.off + q.len ≤ p.off := by
  obtain ⟨hi1, rfl⟩ := List.getElem?_eq_some_iff.mp hi
  obtain ⟨hj1, rfl⟩ := List.getElem?_eq_some_iff.mp hj
  have := List.pairwise_iff_getElem.mp h.2
  rcases Nat.lt_or_gt_of_ne hij with hlt | hlt
  · exact Or.inl (this i j hi1 hj1 hlt)
  · exact Or.inr (this j i hj1 hi1 hlt)

theorem lens_le {lo hi : Nat} : ∀ {ps : List View}, (∀ p ∈ ps, lo ≤ p.off ∧ p.off + p.len ≤ hi) →
    ps.Pairwise (fun p q => p.off + p.len ≤ q.off) → lo ≤ hi → lo + (ps.map View.len).sum ≤ hi
  | [], _, _, h => by simpa using h
  | p :: ps, hw, ho, _ => by
    have h1 := hw p (by simp)
    have h2 := List.pairwise_cons.mp ho
    have := lens_le (lo := p.off + p.len) (hi := hi) (ps := ps)
      (fun q hq => ⟨h2.1 q hq, (hw q (by simp [hq])).2⟩) h2.2 (by omega)
    simp only [List.map_cons, List.sum_cons]
    omega

/-- Windows in order that fill the whole leave no gap. -/
theorem no_gap {v : View} {a b : List View} {p q : View} (h : InOrder v (a ++ p :: q :: b))
    (hs : ((a ++ p :: q :: b).map View.len).sum = v.len) : q.off = p.off + p.len := by
  obtain ⟨hw, ho⟩ := h
  obtain ⟨o1, o2, o3⟩ := List.pairwise_append.mp ho
  obtain ⟨o4, o5⟩ := List.pairwise_cons.mp o2
  obtain ⟨o6, o7⟩ := List.pairwise_cons.mp o5
  have hp := hw p (by simp)
  have hq := hw q (by simp)
  unfold Within at hp hq
  have h1 := lens_le (lo := v.off) (hi := p.off) (ps := a)
    (fun x hx => ⟨(hw x (by simp [hx])).1, o3 x hx p (by simp)⟩) o1 hp.1
  have h2 := lens_le (lo := q.off + q.len) (hi := v.off + v.len) (ps := b)
    (fun x hx => ⟨o6 x hx, (hw x (by simp [hx])).2⟩) o7 hq.2
  have h3 := o4 q (by simp)
  simp only [List.map_append, List.map_cons, List.sum_append, List.sum_cons] at hs
  omega

/-- Appending to a window, in place, just enough to reach another window after it. -/
theorem append_reaches {mem : List Rune} {p q : View} (hq : q.Valid mem) (hne : 0 < q.len)
    (hpq : p.off + p.len ≤ q.off) (rs : List Rune) (r : Rune)
    (hrs : rs.length = q.off - (p.off + p.len)) :
    q.elems (appendRunes mem p (rs ++ [r])).2 = r :: (q.elems mem).tail := by
  unfold View.Valid at hq
  unfold appendRunes
  rw [if_pos (by simp; omega)]
  simp only [View.elems]
  have e1 : (mem.take (p.off + p.len) ++ (rs ++ [r]) ++ mem.drop (p.off + p.len + (rs ++ [r]).length)).drop q.off =
      r :: mem.drop (q.off + 1) := by
    rw [← List.append_assoc, List.append_assoc, List.drop_append_of_le_length (by simp; omega)]
    rw [List.drop_of_length_le (by simp; omega)]
    simp
    congr 1
    omega
  rw [e1]
  obtain ⟨n, hn⟩ : ∃ n, q.len = n + 1 := ⟨q.len - 1, by omega⟩
  rw [hn, List.take_succ_cons, List.drop_eq_getElem_cons (show q.off < mem.length by omega), List.take_succ_cons,
    List.tail_cons]

end Verif.Proofs
