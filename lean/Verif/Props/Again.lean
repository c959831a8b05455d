import Verif.Props.Text

/-! # C81: lines that are set again -/

set_option linter.unusedSectionVars false

namespace Verif.Props
open Verif.Go Verif.Model Verif.Model.LB Verif.Spec Verif.Spec.Ansi Verif.Spec.LB Verif.Proofs Verif.Proofs.LB

/-- Words cut between two runes. -/
theorem joined_cut (ts : List (List Rune)) (p rest : List Ch) (q r : Rune) (h : joined ts = p ++ .rune q :: .rune r :: rest) :
    ∃ a b t u v, ts = a ++ t :: b ∧ t = u ++ v ∧ u ≠ [] ∧ v ≠ [] ∧ p ++ [.rune q] = joined (a ++ [u]) ∧
      .rune r :: rest = joined (v :: b) := by
  have hword : ∀ (t : List Rune) (x y p : List Ch), t.map Ch.rune ++ x = p ++ .rune q :: .rune r :: y →
      (x.head? = none ∨ x.head? = some .gap) →
      (∃ u v, t = u ++ v ∧ u ≠ [] ∧ v ≠ [] ∧ p ++ [.rune q] = u.map Ch.rune ∧ .rune r :: y = v.map Ch.rune ++ x) ∨
      (∃ p', p = t.map Ch.rune ++ p' ∧ x = p' ++ .rune q :: .rune r :: y) := by
    intro t
    induction t with
    | nil => intro x y p h _; exact Or.inr ⟨p, rfl, by simpa using h⟩
    | cons c t ih =>
      intro x y p h hx
      cases p with
      | nil =>
        simp only [List.map_cons, List.cons_append, List.nil_append, List.cons.injEq] at h
        cases t with
        | nil =>
          simp only [List.map_nil, List.nil_append] at h
          rw [h.2] at hx
          simp at hx
        | cons d t =>
          refine Or.inl ⟨[c], d :: t, rfl, by simp, by simp, by simp [← h.1], ?_⟩
          rw [← h.2]
      | cons e p =>
        simp only [List.map_cons, List.cons_append, List.cons.injEq] at h
        rcases ih x y p h.2 hx with ⟨u, v, h1, h2, h3, h4, h5⟩ | ⟨p', h1, h2⟩
        · exact Or.inl ⟨c :: u, v, by rw [h1]; rfl, by simp, h3, by simp [← h.1, ← h4], h5⟩
        · exact Or.inr ⟨p', by simp [← h.1, h1], h2⟩
  induction ts generalizing p with
  | nil => simp [joined] at h
  | cons t ts ih =>
    cases ts with
    | nil =>
      rcases hword t [] rest p (by simpa [joined] using h) (Or.inl rfl) with ⟨u, v, h1, h2, h3, h4, h5⟩ | ⟨p', _, h2⟩
      · exact ⟨[], [], t, u, v, rfl, h1, h2, h3, by simpa [joined] using h4, by simpa [joined] using h5⟩
      · simp at h2
    | cons w ws =>
      rcases hword t (.gap :: joined (w :: ws)) rest p h (Or.inr rfl) with ⟨u, v, h1, h2, h3, h4, h5⟩ | ⟨p', h1, h2⟩
      · exact ⟨[], w :: ws, t, u, v, rfl, h1, h2, h3, by simpa [joined] using h4, h5⟩
      · cases p' with
        | nil => simp at h2
        | cons c p' =>
          simp only [List.cons_append, List.cons.injEq] at h2
          obtain ⟨a, b, t', u, v, e1, e2, e3, e4, e5, e6⟩ := ih p' h2.2
          refine ⟨t :: a, b, t', u, v, by rw [e1]; rfl, e2, e3, e4, ?_, e6⟩
          rw [h1, ← h2.1, List.append_assoc, List.cons_append, e5]
          cases a <;> simp [joined]

/-- The words of a line: parts of words of the text, the last one maybe with a hyphen. -/
def PieceOf (ts : List (List Rune)) (w : List Rune) : Prop :=
  ∃ t ∈ ts, ∃ v, v <:+: t ∧ v ≠ [] ∧ (w = v ∨ w = v ++ [0x2D])

theorem reflow_pieces {s : List Ch} {lines : List (List Rune)}
    (h : Reflow [0x20] (fun e => e = [] ∨ e = [0x2D]) (fun _ e => e = [] ∨ e = [0x2D]) s lines) (ts us : List (List Rune))
    (h0 : us ≠ []) (hs : s = joined us) (hu : ∀ u ∈ us, u ≠ [] ∧ ∃ t ∈ ts, u <:+: t) :
    ∀ line ∈ lines, ∃ ws, ws ≠ [] ∧ (∀ w ∈ ws, PieceOf ts w) ∧ line = List.intercalate [0x20] ws := by
  have hpiece : ∀ us : List (List Rune), us ≠ [] → (∀ u ∈ us, u ≠ [] ∧ ∃ t ∈ ts, u <:+: t) → ∀ e : List Rune, e = [] ∨ e = [0x2D] →
      ∃ ws, ws ≠ [] ∧ (∀ w ∈ ws, PieceOf ts w) ∧ chText [0x20] (joined us) ++ e = List.intercalate [0x20] ws := by
    intro us h0 hu e he
    have hp : ∀ u ∈ us, PieceOf ts u := fun u h => by
      obtain ⟨h1, t, h2, h3⟩ := hu u h
      exact ⟨t, h2, u, h3, h1, Or.inl rfl⟩
    rw [chText_joined]
    rcases he with rfl | rfl
    · exact ⟨us, h0, hp, by simp⟩
    · obtain ⟨x, y, rfl⟩ : ∃ x y, us = x ++ [y] := by
        cases h : us.getLast? with
        | none => simp at h; exact absurd h h0
        | some y => exact ⟨us.dropLast, y, (List.dropLast_append_getLast? y h).symm⟩
      refine ⟨x ++ [y ++ [0x2D]], by simp, ?_, ?_⟩
      · intro w hw
        rcases List.mem_append.mp hw with hw | hw
        · exact hp w (by simp [hw])
        · rw [List.mem_singleton] at hw
          obtain ⟨h1, t, h2, h3⟩ := hu y (by simp)
          exact ⟨t, h2, y, h3, h1, Or.inr hw⟩
      · clear hp hu h0
        induction x with
        | nil => simp [List.intercalate]
        | cons z x ih =>
          have : ∀ v : List Rune, List.intercalate [0x20] (z :: x ++ [v]) = z ++ 0x20 :: List.intercalate [0x20] (x ++ [v]) := by
            intro v
            cases x <;> simp [List.intercalate]
          rw [this, this, ← ih]
          simp
  induction h generalizing us with
  | last p =>
    intro line hl
    rw [List.mem_singleton] at hl
    subst hl hs
    simpa using hpiece us h0 hu [] (Or.inl rfl)
  | gap p x hx _ ih =>
    obtain ⟨a, b, rfl, ha, hb, e1, e2⟩ := joined_split us p _ hs.symm
    intro line hl
    rcases List.mem_cons.mp hl with rfl | hl
    · rw [e1]; exact hpiece a ha (fun u h => hu u (by simp [h])) x hx
    · exact ih b hb e2 (fun u h => hu u (by simp [h])) line hl
  | inside p q q' x hx _ ih =>
    obtain ⟨a, b, t, u, v, rfl, rfl, e2, e3, e4, e5⟩ := joined_cut us p _ q q' hs.symm
    obtain ⟨_, t, ht, k1, k2, hk⟩ := hu (u ++ v) (by simp)
    intro line hl
    rcases List.mem_cons.mp hl with rfl | hl
    · rw [e4]
      refine hpiece (a ++ [u]) (by simp) ?_ x hx
      intro w hw
      rcases List.mem_append.mp hw with hw | hw
      · exact hu w (by simp [hw])
      · rw [List.mem_singleton] at hw
        exact hw ▸ ⟨e2, t, ht, k1, v ++ k2, by rw [← hk]; simp⟩
    · refine ih (v :: b) (by simp) e5 ?_ line hl
      intro w hw
      rcases List.mem_cons.mp hw with rfl | hw
      · exact ⟨e3, t, ht, k1 ++ u, k2, by rw [← hk]; simp⟩
      · exact hu w (by simp [hw])

theorem piece_rune {ts : List (List Rune)} {w : List Rune} (h : PieceOf ts w) : ∀ r ∈ w, r = 0x2D ∨ ∃ u ∈ ts, r ∈ u := by
  obtain ⟨t, ht, v, hv, _, rfl | rfl⟩ := h
  · exact fun r hr => Or.inr ⟨t, ht, hv.subset hr⟩
  · intro r hr
    rcases List.mem_append.mp hr with hr | hr
    · exact Or.inr ⟨t, ht, hv.subset hr⟩
    · exact Or.inl (List.mem_singleton.mp hr)

theorem piece_ne {ts : List (List Rune)} {w : List Rune} (h : PieceOf ts w) : w ≠ [] := by
  obtain ⟨t, _, v, _, hv, rfl | rfl⟩ := h
  · exact hv
  · simp

theorem piece_escapeFree {ts : List (List Rune)} {w : List Rune} (h : PieceOf ts w)
    (hts : ∀ t ∈ ts, (t.length : Int) + 1 < 2 ^ 63 ∧ EscapeFree t) : EscapeFree w := by
  obtain ⟨t, ht, v, hv, _, hw⟩ := h
  obtain ⟨h1, h2, h3⟩ := hts t ht
  have hlen := hv.length_le
  rcases hw with rfl | rfl
  · exact ⟨by omega, fun h => h3 (h.trans hv)⟩
  · refine ⟨by simp; omega, ?_⟩
    rintro ⟨a, b, hab⟩
    rcases List.eq_nil_or_concat b with rfl | ⟨b', z, rfl⟩
    · have := congrArg List.getLast? hab
      simp [introducer] at this
    · rw [List.concat_eq_append, ← List.append_assoc] at hab
      exact h3 (List.IsInfix.trans ⟨a, b', (List.append_inj' hab rfl).1⟩ hv)

section
variable {F : Type} [Arith F] [Laws F] {rt rt' : Runtime} {env : Env} {dict : Dictionary} {opts : List (Opt F)}
  {text : List Rune → Int} {l l' l₂ : LineBreaker F} {tokens : List (List Rune)} {maxWidth : F} {W : Int}

/-- **C81.** A line that was returned is divided into words and set again in the same width, by the same line breaker or
another one with the same options: it is returned unchanged. -/
theorem C81_line_again {lines : List (List Rune)} (c : Call rt env dict opts text 1 l tokens maxWidth W) (hW : 0 < W)
    (hne : ∀ t ∈ tokens, t ≠ [] ∧ ∀ r ∈ t, isSpace r = false) (hlen : ∀ t ∈ tokens, (t.length : Int) + 1 < 2 ^ 63)
    (ho : (defaultOptions opts).renderHyphens = true → OwnPenalty (defaultOptions opts))
    (wd : Rune → Int) (hwd : SumOf text tokens wd) (hnarrow : W ≤ 4997)
    (ht : Arith.le (Arith.tenths 5) (defaultOptions opts).tolerance = true)
    (hbig : 2 * W + (measureOf (defaultOptions opts) text).hyphen ≤ Laws.bound F)
    (h : leftAlignUniform rt env l tokens maxWidth = .ok (some lines, l')) (hw : Walks rt') (hu : Used env dict opts l₂) :
    ∀ line ∈ lines, ∃ ws l₃, tokenizerBreakWord line = .ok ws ∧
      leftAlignUniform rt' env l₂ ws maxWidth = .ok (some [line], l₃) := by
  intro line hline
  have h0 : tokens ≠ [] := by rintro rfl; rw [align_nil] at h; cases h
  have hf : tokens.head? ≠ some [] := fun e => (hne [] (List.mem_of_mem_head? e)).1 rfl
  obtain ⟨ws, w0, hp, rfl⟩ := reflow_pieces (C50_text_kept c hW (fun t ht => (hne t ht).1) h) tokens tokens h0 rfl
    (fun t ht => ⟨(hne t ht).1, t, ht, List.infix_refl t⟩) line hline
  have hsp : ∀ w ∈ ws, w ≠ [] ∧ ∀ r ∈ w, isSpace r = false := by
    intro w hw
    refine ⟨piece_ne (hp w hw), fun r hr => ?_⟩
    rcases piece_rune (hp w hw) r hr with rfl | ⟨u, h1, h2⟩
    · rfl
    · exact (hne u h1).2 r h2
  have hwd' : SumOf text ws wd := by
    intro t ht
    refine hwd t (fun r hr => ?_)
    rcases ht r hr with rfl | rfl | ⟨u, h1, h2⟩
    · exact Or.inl rfl
    · exact Or.inr (Or.inl rfl)
    · exact Or.inr (piece_rune (hp u h1) r h2)
  have hle := C51_width_partial c hW hf ho wd hwd h _ hline
  have hl := lossless (env := env) (dict := dict) c.sane
  obtain ⟨t1, t2⟩ := text_body hl hwd' (measureOf (defaultOptions opts) text) rfl rfl
    (paraSyms (splitterOf env dict (defaultOptions opts)) ws) (fun _ h => h)
  rw [lineText_joined hl] at t1 t2
  rw [← hwd' _ t1] at t2
  have c' : Call rt' env dict opts text 1 l₂ ws maxWidth W := by
    refine ⟨hu, c.sane, hw, c.digits, fun w hw => piece_escapeFree (hp w hw) (fun t ht => ⟨hlen t ht, c.escapeFree t ht⟩), c.scaled, ?_⟩
    rw [← t2, abs_of_pos hW]
    omega
  obtain ⟨l₃, h3⟩ := C55_text_fits c' hW w0 (fun e => piece_ne (hp [] (List.mem_of_mem_head? e)) rfl) hnarrow ht wd hwd' hle
  exact ⟨ws, l₃, C03_fields_join isSpace 0x20 rfl ws hsp, h3⟩

attribute [local irreducible] defaultText in
/-- **C81**, with the default options. -/
theorem C81_default {lines : List (List Rune)} (hu : Used env dict [] l) (hu' : Used env dict [] l₂) (hw : Walks rt)
    (hw' : Walks rt') (hd : AsciiDigits env) (h : Ordinary tokens W) (hW : 0 < W) (hn : W ≤ 4997)
    (hne : ∀ t ∈ tokens, t ≠ [] ∧ ∀ r ∈ t, isSpace r = false) (hlen : ∀ t ∈ tokens, (t.length : Int) + 1 < 2 ^ 63)
    (hr : leftAlignUniform rt env l tokens (Arith.ofInt W : F) = .ok (some lines, l')) :
    ∀ line ∈ lines, ∃ ws l₃, tokenizerBreakWord line = .ok ws ∧
      leftAlignUniform rt' env l₂ ws (Arith.ofInt W) = .ok (some [line], l₃) := by
  refine C81_line_again (call_default hu hw hd h) hW hne hlen (fun _ => own_default) _ (sumOf_default h) hn
    (Laws.tenths_le _ _ (by decide)) ?_ hr hw' hu'
  have e : (measureOf (defaultOptions ([] : List (Opt F))) defaultText).hyphen = 1 := by
    show (if true = true then defaultText [0x2D] else 0) = 1
    rw [defaultText_hyphen]; rfl
  rw [e]
  exact le_trans (by omega) (Laws.bound_large (F := F))

end

local instance againLaws : Laws Rat := ratLaws (2 ^ 53) (le_refl _)

/-- The lines of `demo_run`, one of them with a hyphen. -/
example : ∀ line ∈ ["aa-", "bbdcc", "x,", "yyy,"].map runesOf, ∃ ws l₃, tokenizerBreakWord line = .ok ws ∧
    leftAlignUniform backward Env.ascii (demo []) ws (Arith.ofInt 5) = .ok (some [line], l₃) := by
  obtain ⟨l', h⟩ := demo_run
  exact C81_line_again (demo_words forward_walks) (by decide) (by decide +kernel) (by decide +kernel) (fun _ => own_demo)
    (fun _ => 1) (sumOf_demo _) (by decide) (by decide +kernel) (by decide +kernel) h backward_walks .new

end Verif.Props
