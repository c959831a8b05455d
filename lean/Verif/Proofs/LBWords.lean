import Verif.Proofs.LBDisplay

/-! # Paragraphs of words styled one by one -/

set_option linter.unusedSectionVars false
set_option linter.unusedSimpArgs false

namespace Verif.Proofs.LB
open Verif.Go Verif.Model Verif.Model.LB Verif.Spec Verif.Spec.Ansi Verif.Spec.LB Verif.Props

theorem startLine_split (ss : List Sym) : ∃ d, ss = d ++ startLine ss ∧ parts d = [] := by
  induction ss with
  | nil => exact ⟨[], rfl, rfl⟩
  | cons s ss ih =>
    obtain ⟨d, h1, h2⟩ := ih
    cases s with
    | part t => exact ⟨[], rfl, rfl⟩
    | gap => exact ⟨.gap :: d, by simp [startLine, ← h1], h2⟩
    | soft => exact ⟨.soft :: d, by simp [startLine, ← h1], h2⟩
    | mark => exact ⟨.mark :: d, by simp [startLine, ← h1], h2⟩
    | hard => exact ⟨.hard :: d, by simp [startLine, ← h1], h2⟩

/-- Lines end at the end of the paragraph, or before a symbol which is not a part of a word. -/
theorem cuts_split {hy : Sym → List Rune} {Q : Bool → List Sym → Option Sym → Prop} {first : Bool} {ss : List Sym}
    {ls : List Line} (h : Layout hy Q false first ss ls) (k : Nat) : ∀ c ∈ cuts k ls, ∃ q r, ss = q ++ r ∧
      c = k + (parts q).length ∧ (r = [] ∨ ∃ s r', r = s :: r' ∧ ∀ t, s ≠ .part t) := by
  induction h generalizing k with
  | blankLine h => cases h
  | lastBlank h => cases h
  | blankAfter _ h => cases h
  | last p h1 _ =>
    intro c hc
    simp only [cuts, List.mem_singleton] at hc
    exact ⟨p, [], by simp, hc, Or.inl rfl⟩
  | @brk first p s x rest lines h1 h2 h3 h4 h5 ih =>
    intro c hc
    simp only [cuts, List.mem_cons] at hc
    rcases hc with hc | hc
    · exact ⟨p, s :: rest, rfl, hc, Or.inr ⟨s, rest, rfl, h2⟩⟩
    · obtain ⟨q, r, e, hc, hr⟩ := ih _ c hc
      obtain ⟨d, e1, e2⟩ := startLine_split rest
      refine ⟨p ++ s :: (d ++ q), r, by rw [e1, e]; simp, ?_, hr⟩
      have : parts (s :: (d ++ q)) = parts q := by
        cases s with
        | part t => exact absurd rfl (h2 t)
        | _ => simp [parts, parts_append, e2]
      rw [parts_append, this, hc, List.length_append]
      omega

/-! ## Balanced texts -/

theorem starts_append (a b : List Piece) : starts (a ++ b) = starts a + starts b := by simp [starts]

theorem stops_append (a b : List Piece) : stops (a ++ b) = stops a + stops b := by simp [stops]

theorem balanced_append {a b : List Piece} (ha : Balanced a) (hb : Balanced b) : Balanced (a ++ b) := by
  refine ⟨?_, ?_⟩
  · rw [openAfter_append, ha.1, hb.1]
  · rw [starts_append, stops_append, ha.2, hb.2]

theorem balanced_plain {a : List Piece} (h : Plain a) : Balanced a := by
  refine ⟨openAfter_plain h [], ?_⟩
  induction h with
  | nil => rfl
  | cons t _ ih =>
    simp only [starts, stops, ne_eq, not_true_eq_false, decide_false, Bool.false_eq_true, not_false_eq_true, List.filter_cons_of_neg] at ih ⊢
    exact ih

theorem dress_open (o : List (List Rune)) (t start stop : List Rune) (ts : List (List Rune)) (hne : ts ≠ []) :
    openAfter o (dressParts start stop ts) = openAfter o [⟨t, start, stop⟩] ∧
      starts (dressParts start stop ts) = starts [⟨t, start, stop⟩] ∧ stops (dressParts start stop ts) = stops [⟨t, start, stop⟩] := by
  induction ts generalizing o start with
  | nil => exact absurd rfl hne
  | cons u us ih =>
    cases us with
    | nil => exact ⟨by simp [dressParts, openAfter], by by_cases h : start = [] <;> simp [dressParts, starts, h],
      by by_cases h : stop = [] <;> simp [dressParts, stops, h]⟩
    | cons v vs =>
      obtain ⟨h1, h2, h3⟩ := ih (if start = [] then o else o ++ [start]) [] (by simp)
      have e : dressParts start stop (u :: v :: vs) = [⟨u, start, []⟩] ++ dressParts [] stop (v :: vs) := rfl
      rw [e]
      refine ⟨?_, ?_, ?_⟩
      · rw [openAfter_append]
        have : openAfter o [⟨u, start, []⟩] = if start = [] then o else o ++ [start] := by simp [openAfter]
        rw [this, h1]
        simp [openAfter]
      · rw [starts_append, h2]; by_cases h : start = [] <;> simp [starts, h]
      · rw [stops_append, h3]; by_cases h : stop = [] <;> simp [stops, h]

section
variable {sp : Splitter} (hl : sp.Lossless)
include hl

theorem word_open (o : List (List Rune)) (xs : List Span) (h : ∀ x ∈ xs, x.text ≠ []) :
    let w := xs.flatMap (fun x => dressParts x.start x.stop (parts (tokenSyms sp x.text)))
    openAfter o w = openAfter o (xs.map Span.piece) ∧ starts w = starts (xs.map Span.piece) ∧ stops w = stops (xs.map Span.piece) := by
  induction xs generalizing o with
  | nil => exact ⟨rfl, rfl, rfl⟩
  | cons x xs ih =>
    obtain ⟨h1, h2, h3⟩ := ih (openAfter o [x.piece]) (fun y hy => h y (by simp [hy]))
    obtain ⟨g1, g2, g3⟩ := dress_open o x.text x.start x.stop _ (tokenSyms_ok hl x.text (h x (by simp))).2.1
    simp only [List.flatMap_cons, List.map_cons]
    have e : Span.piece x :: xs.map Span.piece = [Span.piece x] ++ xs.map Span.piece := rfl
    refine ⟨?_, ?_, ?_⟩
    · rw [e, openAfter_append, openAfter_append, g1, ← h1]; rfl
    · rw [e, starts_append, starts_append, g2, h2]; rfl
    · rw [e, stops_append, stops_append, g3, h3]; rfl

theorem pieces_open (tks : List (List Span)) (h : ∀ t ∈ tks, ∀ x ∈ t, x.text ≠ []) :
    openAfter [] (styledPieces sp tks) = openAfter [] (tks.flatten.map Span.piece) := by
  have h1 := (word_open hl [] tks.flatten (by
    intro x hx
    obtain ⟨t, ht, hx⟩ := List.mem_flatten.mp hx
    exact h t ht x hx)).1
  rw [← h1]
  congr 1
  unfold styledPieces
  induction tks with
  | nil => rfl
  | cons t tks ih =>
    simp only [List.flatMap_cons, List.flatten_cons, List.flatMap_append]
    rw [ih (fun t ht => h t (by simp [ht]))]
    refine (word_open hl [] tks.flatten (by
      intro x hx
      obtain ⟨t, ht, hx⟩ := List.mem_flatten.mp hx
      exact h t (by simp [ht]) x hx)).1

theorem words_balanced (tks : List (List Span)) (h : ∀ t ∈ tks, ∀ x ∈ t, x.text ≠ [])
    (hb : ∀ t ∈ tks, Balanced (t.map Span.piece)) : Balanced (styledPieces sp tks) := by
  induction tks with
  | nil => exact ⟨rfl, rfl⟩
  | cons t tks ih =>
    have : styledPieces sp (t :: tks) = t.flatMap (fun x => dressParts x.start x.stop (parts (tokenSyms sp x.text))) ++ styledPieces sp tks := rfl
    rw [this]
    refine balanced_append ?_ (ih (fun u hu => h u (by simp [hu])) (fun u hu => hb u (by simp [hu])))
    obtain ⟨g1, g2, g3⟩ := word_open hl [] t (h t (by simp))
    have hb' := hb t (by simp)
    exact ⟨g1.trans hb'.1, g2.trans (hb'.2.trans g3.symm)⟩

omit hl in
theorem word_length (t : List Span) :
    (t.flatMap (fun x => dressParts x.start x.stop (parts (tokenSyms sp x.text)))).length = (parts (spansSyms sp t)).length := by
  induction t with
  | nil => rfl
  | cons x t ih =>
    have : spansSyms sp (x :: t) = tokenSyms sp x.text ++ spansSyms sp t := rfl
    rw [this, parts_append, List.flatMap_cons, List.length_append, List.length_append, ih, dressParts_length]

omit hl in
theorem unstyled_plain (t : List Span) (h : ∀ x ∈ t, x.start = [] ∧ x.stop = []) :
    Plain (t.flatMap (fun x => dressParts x.start x.stop (parts (tokenSyms sp x.text)))) := by
  induction t with
  | nil => exact .nil
  | cons x t ih =>
    rw [List.flatMap_cons, (h x (by simp)).1, (h x (by simp)).2]
    refine Plain.append ?_ (ih (fun y hy => h y (by simp [hy])))
    rw [dressParts_nil]
    generalize parts (tokenSyms sp x.text) = ts
    rcases List.eq_nil_or_concat ts with rfl | ⟨q, p, rfl⟩
    · exact .nil
    · rw [List.concat_eq_append, List.map_append]
      show Plain (closePieces [] (_ ++ [_]))
      rw [closePieces_concat]
      have : ∀ q : List (List Rune), Plain (q.map (fun t => (⟨t, [], []⟩ : Piece)) ++ [⟨p, [], []⟩]) := by
        intro q
        induction q with
        | nil => exact .cons _ .nil
        | cons u q ih => exact .cons u ih
      exact this q

/-- Where words are styled one by one, and styled words are not divided, no style is open where a line may end. -/
theorem words_split (tks : List (List Span)) (h : ∀ t ∈ tks, ∀ x ∈ t, x.text ≠ [])
    (hb : ∀ t ∈ tks, (Balanced (t.map Span.piece) ∧ ∀ x ∈ t, tokenSyms sp x.text = [.part x.text]) ∨
      ∀ x ∈ t, x.start = [] ∧ x.stop = [])
    (q r : List Sym) (hq : styledSyms sp tks = q ++ r) (hr : r = [] ∨ ∃ s r', r = s :: r' ∧ ∀ t, s ≠ .part t) :
    Balanced ((styledPieces sp tks).take (parts q).length) := by
  have hbal : ∀ t ∈ tks, Balanced (t.map Span.piece) := by
    intro t ht
    rcases hb t ht with hb | hb
    · exact hb.1
    · refine balanced_plain ?_
      clear ht
      induction t with
      | nil => exact .nil
      | cons x t ih =>
        have e : x.piece = ⟨x.text, [], []⟩ := by simp [Span.piece, hb x (by simp)]
        rw [List.map_cons, e]
        exact .cons _ (ih (fun y hy => hb y (by simp [hy])))
  rcases hr with rfl | ⟨s, r', rfl, hs⟩
  · rw [List.append_nil] at hq
    rw [← hq]
    have : (styledPieces sp tks).length = (parts (styledSyms sp tks)).length := by
      rw [styledSyms_eq, parts_syms, ← parPieces_text, ← styledPieces_eq, List.length_map]
    rw [← this, List.take_length]
    exact words_balanced hl tks h hbal
  · induction tks generalizing q with
    | nil => simp [styledSyms] at hq
    | cons t tks ih =>
      have ih' := ih (fun u hu => h u (by simp [hu])) (fun u hu => hb u (by simp [hu]))
      have et : styledPieces sp (t :: tks) =
        t.flatMap (fun x => dressParts x.start x.stop (parts (tokenSyms sp x.text))) ++ styledPieces sp tks := rfl
      have inside : ∀ c, spansSyms sp t = q ++ s :: c →
          Balanced ((styledPieces sp (t :: tks)).take (parts q).length) := by
        intro c hc
        rcases hb t (by simp) with ⟨_, hb⟩ | hb
        · exfalso
          have hm : s ∈ spansSyms sp t := by rw [hc]; simp
          obtain ⟨x, hx, hm⟩ := List.mem_flatMap.mp hm
          rw [hb x hx] at hm
          exact hs _ (List.mem_singleton.mp hm)
        · rw [et, List.take_append_of_le_length (by
            rw [word_length, hc, parts_append, List.length_append]; omega)]
          exact balanced_plain (plain_take (unstyled_plain t hb) _)
      cases tks with
      | nil => exact inside r' hq
      | cons u us =>
        have hq' : spansSyms sp t ++ .gap :: styledSyms sp (u :: us) = q ++ s :: r' := hq
        have hw : Balanced (t.flatMap (fun x => dressParts x.start x.stop (parts (tokenSyms sp x.text)))) := by
          obtain ⟨g1, g2, g3⟩ := word_open hl [] t (h t (by simp))
          have hb' := hbal t (by simp)
          exact ⟨g1.trans hb'.1, g2.trans (hb'.2.trans g3.symm)⟩
        rcases List.append_eq_append_iff.mp hq' with ⟨c, h1, h2⟩ | ⟨c, h1, h2⟩
        · cases c with
          | nil =>
            rw [h1, et, List.append_nil, List.take_append_of_le_length (by rw [word_length]), ← word_length, List.take_length]
            exact hw
          | cons x c =>
            simp only [List.cons_append, List.cons.injEq] at h2
            obtain ⟨rfl, h2⟩ := h2
            have := ih' c (fun v hv => hbal v (List.mem_cons_of_mem _ hv)) h2
            have e3 : parts q = parts (spansSyms sp t) ++ parts c := by
              rw [h1, parts_append]; rfl
            rw [e3, List.length_append, et, ← word_length, List.take_length_add_append]
            exact balanced_append hw this
        · cases c with
          | nil =>
            rw [List.append_nil] at h1
            rw [← h1, et, List.take_append_of_le_length (by rw [word_length]), ← word_length, List.take_length]
            exact hw
          | cons x c =>
            simp only [List.cons_append, List.cons.injEq] at h2
            obtain ⟨rfl, h2⟩ := h2
            exact inside c h1

end

end Verif.Proofs.LB
