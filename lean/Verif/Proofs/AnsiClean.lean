import Verif.Proofs.AnsiSeq

/-! # Texts made of plain runes and short control sequences -/

namespace Verif.Proofs.Ansi
open Verif.Go Verif.Model Verif.Model.Ansi Verif.Spec.Ansi

/-- Any sequence. -/
abbrev AnySeq : CtlSeq → Prop := fun _ => True

/-- Neither start nor stop. -/
abbrev Inert : CtlSeq → Prop := fun s => ¬ s.Starts ∧ ¬ s.Stops

theorem madeOf_append {env : Env} {K : CtlSeq → Prop} {a b : List Rune} (ha : MadeOf env K a)
    (hb : MadeOf env K b) : MadeOf env K (a ++ b) := by
  induction ha with
  | nil => exact hb
  | rune h _ ih => exact .rune h ih
  | seq h1 h2 h3 h4 _ ih => rw [List.append_assoc]; exact .seq h1 h2 h3 h4 ih

theorem madeOf_plain {env : Env} {K : CtlSeq → Prop} : ∀ {w : List Rune}, (0x1B : Rune) ∉ w → MadeOf env K w
  | [], _ => .nil
  | r :: w, h => .rune (fun e => h (by rw [e]; simp)) (madeOf_plain (fun hm => h (List.mem_cons_of_mem _ hm)))

theorem madeOf_decode {env : Env} (hd : AsciiDigits env) {K : CtlSeq → Prop} {l : List Rune} (h : MadeOf env K l) :
    decodeSeq env l = none ∨ ∃ (s : CtlSeq) (t : List Rune), l = s.runes ++ t ∧ s.WellFormed env ∧ s.Short ∧
      s.key ≠ 0x1B ∧ K s ∧ MadeOf env K t ∧ decodeSeq env l = some (s.runes.length, kindOf s) := by
  cases h with
  | nil => exact Or.inl rfl
  | rune h _ =>
    left
    apply decodeSeq_not_esc
    intro y hy
    cases hy; exact h
  | seq h1 h2 h3 h4 h5 => exact Or.inr ⟨_, _, rfl, h1, h2, h3, h4, h5, decodeSeq_complete hd h1 h2 _⟩

theorem madeOf_text {env : Env} {K : CtlSeq → Prop} {l : List Rune} (h : MadeOf env K l) :
    ∃ w t, l = w ++ t ∧ (0x1B : Rune) ∉ w ∧ MadeOf env K t ∧ textLen l = w.length := by
  have : ∃ w t, l = w ++ t ∧ (0x1B : Rune) ∉ w ∧ MadeOf env K t ∧ textLen t = 0 := by
    induction h with
    | nil => exact ⟨[], [], rfl, by simp, .nil, rfl⟩
    | rune h _ ih =>
      obtain ⟨w, t, e1, e2, e3, e4⟩ := ih
      refine ⟨_ :: w, t, by rw [e1]; rfl, ?_, e3, e4⟩
      intro hm
      rcases List.mem_cons.mp hm with e | e
      · exact h e.symm
      · exact e2 e
    | seq h1 h2 h3 h4 h5 _ => exact ⟨[], _, rfl, by simp, .seq h1 h2 h3 h4 h5, textLen_seq _ _⟩
  obtain ⟨w, t, e1, e2, e3, e4⟩ := this
  exact ⟨w, t, e1, e2, e3, by rw [e1]; exact textLen_plain w t e2 e4⟩

theorem inert_of_other {s : CtlSeq} (h : Kind.other = kindOf s) : Inert s := by
  constructor
  · intro hc
    rw [(kindOf_start s).mpr hc] at h; cases h
  · intro hc
    rw [(kindOf_stop s).mpr hc] at h; cases h

theorem trail_madeOf {env : Env} (hd : AsciiDigits env) {K : CtlSeq → Prop} {l : List Rune} {t s d : Nat} (h : Trail env l t s d) :
    MadeOf env K l → MadeOf env (fun s => K s ∧ Inert s) (l.take t) ∧ MadeOf env K (l.drop d) ∧ t ≤ l.length := by
  induction h with
  | done _ => exact fun h => ⟨by simpa using MadeOf.nil, by simpa using h, by omega⟩
  | start _ => exact fun h => ⟨by simpa using MadeOf.nil, by simpa using h, by omega⟩
  | other h1 h2 _ ih =>
    intro hm
    rcases madeOf_decode hd hm with h3 | ⟨q, u, e1, e2, e3, e4, e5, e6, e7⟩
    · rw [h3] at h1; cases h1
    · rw [e7] at h1
      have hn := (Prod.mk.inj (Option.some.inj h1)).1
      have hk := (Prod.mk.inj (Option.some.inj h1)).2
      rw [← hn, e1, List.drop_left] at ih
      obtain ⟨g1, g2, g3⟩ := ih e6
      rw [← hn, e1]
      refine ⟨?_, ?_, by rw [List.length_append]; omega⟩
      · rw [List.take_length_add_append]
        exact .seq e2 e3 e4 ⟨e5, inert_of_other hk.symm⟩ g1
      · rw [← List.drop_drop, List.drop_left]; exact g2
  | overrun h1 =>
    intro hm
    rcases madeOf_decode hd hm with h3 | ⟨q, u, e1, e2, e3, e4, e5, e6, e7⟩
    · rw [h3] at h1; cases h1
    · rw [e7] at h1
      have hn := (Prod.mk.inj (Option.some.inj h1)).1
      rw [e1, List.length_append] at hn; omega
  | stop h1 h2 _ =>
    intro hm
    rcases madeOf_decode hd hm with h3 | ⟨q, u, e1, e2, e3, e4, e5, e6, e7⟩
    · rw [h3] at h1; cases h1
    · rw [e7] at h1
      have hn := (Prod.mk.inj (Option.some.inj h1)).1
      refine ⟨by simpa using MadeOf.nil, ?_, by omega⟩
      rw [← hn, e1, List.drop_left]; exact e6
  | stopOverrun h1 h2 h4 =>
    intro hm
    rcases madeOf_decode hd hm with h3 | ⟨q, u, e1, e2, e3, e4, e5, e6, e7⟩
    · rw [h3] at h1; cases h1
    · rw [e7] at h1
      have hn := (Prod.mk.inj (Option.some.inj h1)).1
      rw [← hn, e1, List.drop_left] at h4
      rcases madeOf_decode hd e6 with h3 | ⟨q, u, f1, f2, f3, f4, f5, f6, f7⟩
      · rw [h3] at h4; cases h4
      · rw [f7] at h4
        have hn := (Prod.mk.inj (Option.some.inj h4)).1
        rw [f1, List.length_append] at hn; omega

theorem body_madeOf {env : Env} (hd : AsciiDigits env) {K : CtlSeq → Prop} {s : Bool} {l : List Rune} {x : Bool} {b c d : Nat}
    (h : Body env s l x b c d) (hm : MadeOf env K l) :
    MadeOf env (fun s => K s ∧ Inert s) (l.take b) ∧ MadeOf env K (l.drop d) ∧ b ≤ l.length := by
  have hinv : ∀ {n k}, decodeSeq env l = some (n, k) → ∃ (s : CtlSeq) (t : List Rune), l = s.runes ++ t ∧
      s.WellFormed env ∧ s.Short ∧ s.key ≠ 0x1B ∧ K s ∧ MadeOf env K t ∧ n = s.runes.length ∧ k = kindOf s := by
    intro n k hk
    rcases madeOf_decode hd hm with h3 | ⟨q, u, e1, e2, e3, e4, e5, e6, e7⟩
    · rw [h3] at hk; cases hk
    · rw [e7] at hk
      have := Prod.mk.inj (Option.some.inj hk)
      exact ⟨q, u, e1, e2, e3, e4, e5, e6, this.1.symm, this.2.symm⟩
  cases h with
  | other h1 h2 =>
    obtain ⟨q, u, e1, e2, e3, e4, eK, e5, e6, e7⟩ := hinv h1
    refine ⟨?_, ?_, h2⟩
    · rw [e6, e1, List.take_left]
      have := MadeOf.seq e2 e3 e4 (K := fun s => K s ∧ Inert s) ⟨eK, inert_of_other e7⟩ MadeOf.nil
      rwa [List.append_nil] at this
    · rw [e6, e1, List.drop_left]; exact e5
  | overrun h1 =>
    obtain ⟨q, u, e1, e2, e3, e4, eK, e5, e6, e7⟩ := hinv h1
    have := congrArg List.length e1
    rw [List.length_append] at this; omega
  | stop h1 h2 =>
    obtain ⟨q, u, e1, e2, e3, e4, eK, e5, e6, e7⟩ := hinv h1
    refine ⟨by simpa using MadeOf.nil, ?_, by omega⟩
    rw [e6, e1, List.drop_left]; exact e5
  | start _ h1 h2 => exact ⟨by simpa using MadeOf.nil, by simpa using hm, by omega⟩
  | text h1 h2 =>
    obtain ⟨w, t, e1, e2, e3, e4⟩ := madeOf_text hm
    rw [e4] at h2 ⊢
    have e5 : l.drop w.length = t := by rw [e1, List.drop_left]
    rw [e5] at h2
    obtain ⟨g1, g2, g3⟩ := trail_madeOf hd h2 e3
    refine ⟨?_, ?_, by rw [e1, List.length_append]; omega⟩
    · rw [e1, List.take_length_add_append]
      exact madeOf_append (madeOf_plain e2) g1
    · rw [← List.drop_drop, e5]; exact g2

theorem strip_madeOf {env : Env} (hd : AsciiDigits env) {K : CtlSeq → Prop} {l : List Rune} {a b c d : Nat} {x : Bool}
    (h : Strip env l a x b c d) (hm : MadeOf env K l) :
    MadeOf env (fun s => K s ∧ Inert s) ((l.drop a).take b) ∧ MadeOf env K (l.drop (a + d)) ∧ a + b ≤ l.length := by
  cases h with
  | plain h =>
    obtain ⟨g1, g2, g3⟩ := body_madeOf hd h hm
    exact ⟨by simpa using g1, by simpa using g2, by omega⟩
  | styled h1 h2 h =>
    have hm2 : MadeOf env K (l.drop a) := by
      rcases madeOf_decode hd hm with h3 | ⟨q, u, e1, e2, e3, e4, e5, e6, e7⟩
      · rw [h3] at h1; cases h1
      · rw [e7] at h1
        have := (Prod.mk.inj (Option.some.inj h1)).1
        rw [← this, e1, List.drop_left]; exact e6
    obtain ⟨g1, g2, g3⟩ := body_madeOf hd h hm2
    rw [List.drop_drop] at g2
    rw [List.length_drop] at g3
    exact ⟨g1, g2, by omega⟩

theorem run_madeOf_kind {env : Env} (hd : AsciiDigits env) {K : CtlSeq → Prop} {mem : List Rune} {v : View} {toks : List StrippedToken}
    (h : Run env mem v toks) (hv : v.Valid mem) (hm : MadeOf env K (v.elems mem)) :
    ∀ tok ∈ toks, MadeOf env (fun s => K s ∧ Inert s) (textElems mem tok.text) := by
  induction h with
  | last h1 h2 h3 _ =>
    intro tok ht
    obtain ⟨g1, _, g3⟩ := strip_madeOf hd h1 hm
    rw [View.elems_length hv] at g3
    rw [List.mem_singleton.mp ht, result_text mem _ h1 g3]
    exact g1
  | more h1 h2 h3 _ h5 _ ih =>
    intro tok ht
    obtain ⟨g1, g2, g3⟩ := strip_madeOf hd h1 hm
    rw [View.elems_length hv] at g3
    rcases List.mem_cons.mp ht with e | e
    · rw [e, result_text mem _ h1 g3]; exact g1
    · exact ih (by unfold View.Valid at hv ⊢; simp only; omega) (by rw [elems_drop]; exact g2) tok e

theorem madeOf_mono {env : Env} {K K' : CtlSeq → Prop} (hk : ∀ s, K s → K' s) {l : List Rune} (h : MadeOf env K l) :
    MadeOf env K' l := by
  induction h with
  | nil => exact .nil
  | rune h _ ih => exact .rune h ih
  | seq h1 h2 h3 h4 _ ih => exact .seq h1 h2 h3 (hk _ h4) ih

theorem run_madeOf {env : Env} (hd : AsciiDigits env) {mem : List Rune} {v : View} {toks : List StrippedToken}
    (h : Run env mem v toks) (hv : v.Valid mem) (hm : MadeOf env AnySeq (v.elems mem)) :
    ∀ tok ∈ toks, MadeOf env Inert (textElems mem tok.text) :=
  fun tok ht => madeOf_mono (fun _ h => h.2) (run_madeOf_kind hd h hv hm tok ht)

/-! ## A text made of inert sequences contains no start or stop sequence -/

theorem esc_not_digit {env : Env} (hd : AsciiDigits env) : env.isDigit 0x1B = false := by
  cases h : env.isDigit 0x1B with
  | false => rfl
  | true => exact absurd ((hd 0x1B (by decide) (by decide)).mp h) (by decide)

/-- Digits and separators. -/
def isParam (env : Env) (r : Rune) : Bool := env.isDigit r || (r == 0x3B || r == 0x3A)

theorem params_all {env : Env} {s : CtlSeq} (h : s.WellFormed env) :
    ∀ r ∈ s.first ++ moreRunes s.more, isParam env r = true := by
  intro r hr
  unfold isParam
  rcases List.mem_append.mp hr with hr | hr
  · rw [h.first r hr]; rfl
  · simp only [moreRunes, List.mem_flatMap] at hr
    obtain ⟨p, hp, hr⟩ := hr
    have := h.more p hp
    rcases List.mem_cons.mp hr with e | e
    · have h2 := this.1
      rw [e]
      simp only [Bool.or_eq_true, beq_iff_eq]
      exact Or.inr h2
    · rw [this.2 r e]; rfl

theorem key_not_param {env : Env} {s : CtlSeq} (h : s.WellFormed env) : isParam env s.key = false := by
  unfold isParam
  rw [h.key.1]
  simp only [Bool.false_or]
  apply Bool.eq_false_iff.mpr
  intro hc
  exact h.key.2 (by simpa [IsSep] using hc)

theorem dropWhile_params {env : Env} {s : CtlSeq} (h : s.WellFormed env) (t : List Rune) :
    (s.first ++ moreRunes s.more ++ s.key :: t).dropWhile (isParam env) = s.key :: t := by
  rw [List.dropWhile_append_of_pos (params_all h), List.dropWhile_cons, key_not_param h]
  rfl

theorem takeWhile_first {env : Env} (hd : AsciiDigits env) {s : CtlSeq} (h : s.WellFormed env) (t : List Rune) :
    (s.first ++ moreRunes s.more ++ s.key :: t).takeWhile env.isDigit = s.first := by
  rw [List.append_assoc, List.takeWhile_append_of_pos h.first]
  have : (moreRunes s.more ++ s.key :: t).takeWhile env.isDigit = [] := by
    have hm := h.more
    match hmore : s.more with
    | [] => simp [moreRunes, h.key.1]
    | p :: more =>
      have h2 := (hm p (by rw [hmore]; simp)).1
      have hpd : env.isDigit p.1 = false := by
        cases hc : env.isDigit p.1 with
        | false => rfl
        | true =>
          have h3 := not_sep_of_digit hd hc
          have h4 : (p.1 == 0x3B || p.1 == 0x3A) = true := by simpa [IsSep] using h2
          rw [h4] at h3; cases h3
      simp [moreRunes, hpd]
  rw [this, List.append_nil]

theorem tail_no_esc {env : Env} (hd : AsciiDigits env) {s : CtlSeq} (h : s.WellFormed env) (hk : s.key ≠ 0x1B) :
    (0x1B : Rune) ∉ openingBracket :: (s.first ++ moreRunes s.more ++ [s.key]) := by
  intro hm
  rcases List.mem_cons.mp hm with e | e
  · revert e; decide
  · rcases List.mem_append.mp e with e | e
    · have := params_all h _ e
      unfold isParam at this
      rw [esc_not_digit hd] at this
      revert this; decide
    · exact hk (List.mem_singleton.mp e).symm

theorem inert_no_infix {env : Env} (hd : AsciiDigits env) {l : List Rune} (h : MadeOf env Inert l) (s : CtlSeq)
    (hs : s.WellFormed env) (hk : s.Starts ∨ s.Stops) : ¬ s.runes <:+: l := by
  induction h with
  | nil =>
    intro hc
    exact runes_ne_nil s (List.infix_nil.mp hc)
  | rune hr _ ih =>
    rintro ⟨pre, post, e⟩
    match pre, e with
    | [], e =>
      rw [List.nil_append, runes_eq] at e
      exact hr (List.cons.inj e).1.symm
    | _ :: pre, e => exact ih ⟨pre, post, (List.cons.inj e).2⟩
  | @seq o l' h1 h2 h3 h4 h5 ih =>
    rintro ⟨pre, post, e⟩
    have ho : o.runes = esc :: openingBracket :: (o.first ++ moreRunes o.more ++ [o.key]) := by
      have := runes_eq o []
      rwa [List.append_nil] at this
    match pre, e with
    | [], e =>
      rw [List.nil_append, runes_eq, runes_eq] at e
      have e2 := (List.cons.inj (List.cons.inj e).2).2
      have k1 := congrArg (List.dropWhile (isParam env)) e2
      rw [dropWhile_params hs, dropWhile_params h1] at k1
      have k2 := congrArg (List.takeWhile env.isDigit) e2
      rw [takeWhile_first hd hs, takeWhile_first hd h1] at k2
      have k3 := (List.cons.inj k1).1
      rcases hk with hk | hk
      · apply h4.1
        unfold CtlSeq.Starts CtlSeq.ZeroArg at hk ⊢
        rw [k3, k2] at hk; exact hk
      · apply h4.2
        unfold CtlSeq.Stops CtlSeq.ZeroArg at hk ⊢
        rw [k3, k2] at hk; exact hk
    | r :: pre, e =>
      rw [List.append_assoc] at e
      rcases List.append_eq_append_iff.mp e with ⟨as, q1, q2⟩ | ⟨bs, q1, q2⟩
      · match as, q1, q2 with
        | [], _, q2 => exact ih ⟨[], post, by simpa using q2⟩
        | y :: as, q1, q2 =>
          rw [runes_eq] at q2
          have hy : esc = y := (List.cons.inj q2).1
          rw [ho, List.cons_append] at q1
          apply tail_no_esc hd h1 h3
          rw [(List.cons.inj q1).2, ← hy]
          exact List.mem_append_right _ List.mem_cons_self
      · exact ih ⟨bs, post, by rw [List.append_assoc]; exact q2.symm⟩

/-- Whether the text is cut short depends on its end only. -/
theorem cutShort_append {env : Env} (hd : AsciiDigits env) {K : CtlSeq → Prop} {a rest : List Rune}
    (h : MadeOf env K a) (hr : ¬ CutShort env rest) : ¬ CutShort env (a ++ rest) := by
  induction h with
  | nil => exact hr
  | rune hne _ ih =>
    rintro ⟨pre, body, e, h1, h2⟩
    match pre, e with
    | [], e => exact hne (List.cons.inj e).1
    | _ :: pre, e => exact ih ⟨pre, body, (List.cons.inj e).2, h1, h2⟩
  | @seq o a' g1 g2 g3 g4 _ ih =>
    rintro ⟨pre, body, e, h1, h2⟩
    have ho : o.runes = esc :: openingBracket :: (o.first ++ moreRunes o.more ++ [o.key]) := by
      have := runes_eq o []
      rwa [List.append_nil] at this
    match pre, e with
    | [], e =>
      rw [List.append_assoc, runes_eq] at e
      have e2 : o.first ++ moreRunes o.more ++ o.key :: (a' ++ rest) = body :=
        (List.cons.inj (List.cons.inj e).2).2
      have := h1 o.key (by rw [← e2]; simp)
      rcases this with hc | hc
      · rw [g1.key.1] at hc; cases hc
      · exact g1.key.2 hc
    | r :: pre, e =>
      rw [List.append_assoc, List.append_assoc] at e
      rcases List.append_eq_append_iff.mp e with ⟨as, q1, q2⟩ | ⟨bs, q1, q2⟩
      · exact ih ⟨as, body, by rw [List.append_assoc]; exact q2, h1, h2⟩
      · match bs, q1, q2 with
        | [], _, q2 => exact ih ⟨[], body, by simpa using q2.symm, h1, h2⟩
        | y :: bs, q1, q2 =>
          have hy : esc = y := (List.cons.inj q2).1
          rw [ho, List.cons_append] at q1
          exfalso
          apply tail_no_esc hd g1 g3
          rw [(List.cons.inj q1).2, ← hy]
          exact List.mem_append_right _ List.mem_cons_self

theorem cutShort_nil {env : Env} : ¬ CutShort env [] := by
  rintro ⟨pre, body, e, _⟩
  simp [introducer] at e

theorem cutShort_madeOf {env : Env} (hd : AsciiDigits env) {K : CtlSeq → Prop} {l : List Rune}
    (h : MadeOf env K l) : ¬ CutShort env l := by
  have := cutShort_append hd h (cutShort_nil (env := env))
  rwa [List.append_nil] at this

theorem word_key {s : CtlSeq} (hs : s.Starts ∨ s.Stops) : s.key ≠ 0x1B := by
  intro e
  unfold CtlSeq.Starts CtlSeq.Stops at hs
  rw [e] at hs
  revert hs; simp

theorem madeOf_word {env : Env} {w : Word} (hg : w.Good env) : MadeOf env AnySeq w.runes := by
  unfold Word.runes
  rw [List.append_assoc, List.append_assoc]
  refine madeOf_append (madeOf_plain hg.gap) (.seq hg.start.1 hg.start.2.1
    (word_key (Or.inl hg.start.2.2)) trivial (madeOf_append (madeOf_plain hg.text) ?_))
  have := MadeOf.seq (K := AnySeq) hg.stop.1 hg.stop.2.1 (word_key (Or.inr hg.stop.2.2)) trivial .nil
  rwa [List.append_nil] at this

theorem madeOf_words {env : Env} : ∀ {ws : List Word}, (∀ w ∈ ws, w.Good env) →
    MadeOf env AnySeq (ws.flatMap Word.runes)
  | [], _ => .nil
  | w :: ws, h => by
    rw [List.flatMap_cons]
    exact madeOf_append (madeOf_word (h w (by simp))) (madeOf_words (fun w hm => h w (by simp [hm])))

end Verif.Proofs.Ansi
