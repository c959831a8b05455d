import Verif.Proofs.LBStyled
import Verif.Spec.Display

/-! # What the lines of a styled paragraph show -/

set_option linter.unusedSectionVars false
set_option linter.unusedSimpArgs false

namespace Verif.Proofs.LB
open Verif.Go Verif.Model Verif.Model.LB Verif.Spec Verif.Spec.Ansi Verif.Spec.LB Verif.Props

/-! ## Pieces -/

/-- The style of the text of a piece. -/
def pieceStyle (σ : Style) (p : Piece) : Style := if p.start = [] then σ else turnOn σ p.start

/-- The style after a piece. -/
def pieceAfter (σ : Style) (p : Piece) : Style := if p.stop = [] then pieceStyle σ p else []

/-- The contents of symbols with the pieces for the parts of words. -/
def symItems : Style → List Sym → List Piece → List Item
  | _, [], _ => []
  | σ, .part _ :: rest, [] => symItems σ rest []
  | σ, .part _ :: rest, p :: ps => items (pieceStyle σ p) p.text ++ symItems (pieceAfter σ p) rest ps
  | σ, .gap :: rest, ps => .gap σ :: symItems σ rest ps
  | σ, _ :: rest, ps => symItems σ rest ps

/-- The style after some pieces. -/
def styleAfter (σ : Style) (ps : List Piece) : Style := ps.foldl pieceAfter σ

/-- The sequences of a piece are what they should be, and ESC is nowhere else. -/
structure GoodPiece (env : Env) (p : Piece) : Prop where
  text : (0x1B : Rune) ∉ p.text
  start : p.start = [] ∨ ∃ s : CtlSeq, s.WellFormed env ∧ s.Short ∧ s.Starts ∧ p.start = s.runes
  stop : p.stop = [] ∨ ∃ s : CtlSeq, s.WellFormed env ∧ s.Short ∧ s.Stops ∧ p.stop = s.runes

theorem symItems_append (σ : Style) (a b : List Sym) (ps : List Piece) :
    symItems σ (a ++ b) ps = symItems σ a ps ++
      symItems (styleAfter σ (ps.take (parts a).length)) b (ps.drop (parts a).length) := by
  induction a generalizing σ ps with
  | nil => simp [symItems, parts, styleAfter]
  | cons s a ih =>
    cases s with
    | part t =>
      cases ps with
      | nil =>
        simp only [List.cons_append, symItems]
        rw [ih]
        simp
      | cons p ps =>
        simp only [List.cons_append, symItems, parts, List.length_cons, List.take_succ_cons, List.drop_succ_cons]
        rw [ih]
        simp [styleAfter]
    | gap => simp only [List.cons_append, symItems, parts]; rw [ih]
    | soft => simp only [List.cons_append, symItems, parts]; rw [ih]
    | mark => simp only [List.cons_append, symItems, parts]; rw [ih]
    | hard => simp only [List.cons_append, symItems, parts]; rw [ih]

theorem symItems_gap (σ : Style) (b : List Sym) (ps : List Piece) :
    symItems σ (.gap :: b) ps = .gap σ :: symItems σ b ps := by cases ps <;> rfl

theorem items_append (σ : Style) (a b : List Rune) : items σ (a ++ b) = items σ a ++ items σ b := by simp [items]

/-- Only the pieces for the parts matter. -/
theorem symItems_take (σ : Style) (ss : List Sym) (ps : List Piece) :
    symItems σ ss (ps.take (parts ss).length) = symItems σ ss ps := by
  induction ss generalizing σ ps with
  | nil => rfl
  | cons s ss ih =>
    cases s with
    | part t =>
      cases ps with
      | nil => simp
      | cons p ps =>
        simp only [symItems, parts, List.length_cons, List.take_succ_cons]
        rw [ih]
    | gap => rw [symItems_gap, symItems_gap]; simp only [parts]; rw [ih]
    | soft => exact ih σ ps
    | mark => exact ih σ ps
    | hard => exact ih σ ps

/-! ## The contents of words -/

theorem symItems_plain (σ : Style) (ss : List Sym) (ts : List (List Rune)) (h : .gap ∉ ss) (hp : parts ss = ts) (stop : List Rune)
    (hne : ts ≠ []) :
    symItems σ ss (dressParts [] stop ts) = items σ ts.flatten := by
  induction ss generalizing ts with
  | nil => subst hp; exact absurd rfl hne
  | cons s ss ih =>
    have h' : .gap ∉ ss := fun h' => h (by simp [h'])
    cases s with
    | gap => exact absurd (by simp) h
    | part t =>
      simp only [parts] at hp
      subst hp
      cases hq : parts ss with
      | nil =>
        simp only [dressParts, symItems, pieceStyle, if_true]
        have : ∀ ss : List Sym, parts ss = [] → .gap ∉ ss → ∀ σ ps, symItems σ ss ps = [] := by
          intro ss
          induction ss with
          | nil => intros; rfl
          | cons s ss ih =>
            intro h1 h2 σ ps
            have h3 : .gap ∉ ss := fun h' => h2 (by simp [h'])
            cases s with
            | part t => simp [parts] at h1
            | gap => exact absurd (by simp) h2
            | _ => exact ih h1 h3 σ ps
        rw [this ss hq h']
        simp
      | cons u us =>
        simp only [dressParts, symItems, pieceStyle, pieceAfter, if_true]
        rw [ih (u :: us) h' hq (by simp)]
        simp [items_append]
    | soft => exact ih ts h' hp hne
    | mark => exact ih ts h' hp hne
    | hard => exact ih ts h' hp hne

theorem symItems_dress (σ : Style) (ss : List Sym) (h : .gap ∉ ss) (start stop : List Rune) (hne : parts ss ≠ []) :
    symItems σ ss (dressParts start stop (parts ss)) = items (if start = [] then σ else turnOn σ start) (parts ss).flatten := by
  by_cases hs : start = []
  · subst hs; simpa using symItems_plain σ ss _ h rfl stop hne
  · rw [if_neg hs]
    induction ss with
    | nil => exact absurd rfl hne
    | cons s ss ih =>
      have h' : .gap ∉ ss := fun h' => h (by simp [h'])
      cases s with
      | gap => exact absurd (by simp) h
      | part t =>
        simp only [parts]
        have h2 := symItems_plain (turnOn σ start) (.part t :: ss) _ h rfl stop (by simp [parts])
        rw [show parts (.part t :: ss) = t :: parts ss from rfl] at h2
        rw [← h2]
        cases parts ss with
        | nil => simp [dressParts, symItems, pieceStyle, pieceAfter, hs]
        | cons u us => simp [dressParts, symItems, pieceStyle, pieceAfter, hs]
      | soft => exact ih h' hne
      | mark => exact ih h' hne
      | hard => exact ih h' hne

theorem after_dress (σ : Style) (start stop : List Rune) (ts : List (List Rune)) (hne : ts ≠ []) :
    styleAfter σ (dressParts start stop ts) = if stop = [] then (if start = [] then σ else turnOn σ start) else [] := by
  induction ts generalizing σ start with
  | nil => exact absurd rfl hne
  | cons t ts ih =>
    cases ts with
    | nil => simp [dressParts, styleAfter, pieceAfter, pieceStyle]
    | cons u us =>
      have := ih (if start = [] then σ else turnOn σ start) [] (by simp)
      simp only [dressParts, styleAfter, List.foldl_cons, pieceAfter, pieceStyle, if_true] at this ⊢
      exact this

theorem dressParts_length (start stop : List Rune) (ts : List (List Rune)) : (dressParts start stop ts).length = ts.length := by
  induction ts generalizing start with
  | nil => rfl
  | cons t ts ih =>
    cases ts with
    | nil => rfl
    | cons u us => simp only [dressParts, List.length_cons]; rw [ih]; rfl

theorem seqRunes_nil (o : Option CtlSeq) : seqRunes o = [] ↔ o = none := by
  cases o with
  | none => simp [seqRunes]
  | some s => simp [seqRunes, CtlSeq.runes]

section
variable {sp : Splitter} (hl : sp.Lossless)
include hl

theorem tokenSyms_ok (t : List Rune) (ht : t ≠ []) :
    .gap ∉ tokenSyms sp t ∧ parts (tokenSyms sp t) ≠ [] ∧ (parts (tokenSyms sp t)).flatten = t := by
  obtain ⟨h1, h2⟩ := token_token hl t ht
  have h3 : ∀ ss : List Sym, ∀ u : List Rune, chars ss = u.map Ch.rune → .gap ∉ ss ∧ (parts ss).flatten = u := by
    intro ss
    induction ss with
    | nil =>
      intro u h
      have : u = [] := by simpa [chars] using h.symm
      simp [parts, this]
    | cons s ss ih =>
      intro u h
      rw [chars_cons] at h
      cases s with
      | gap => cases u <;> simp [symCh] at h
      | part v =>
        simp only [symCh] at h
        obtain ⟨u1, u2, rfl, e1, e2⟩ := List.map_eq_append_iff.mp h.symm
        have e3 : u1 = v := by
          have hinj : Function.Injective Ch.rune := fun a b e => by cases e; rfl
          exact hinj.list_map e1
        subst e3
        obtain ⟨i1, i2⟩ := ih u2 e2.symm
        simp [parts, i1, i2]
      | soft => have := ih u (by simpa [symCh] using h); simpa [parts] using this
      | mark => have := ih u (by simpa [symCh] using h); simpa [parts] using this
      | hard => have := ih u (by simpa [symCh] using h); simpa [parts] using this
  obtain ⟨g1, g2⟩ := h3 _ _ h2
  refine ⟨g1, ?_, g2⟩
  intro e
  rw [e] at g2
  exact ht g2.symm

theorem symItems_chunk {env : Env} (σ : Style) (c : Chunk) (hg : c.Good env) (rest : List Sym) (ps : List Piece) :
    let x := chunkSpan c
    symItems σ (tokenSyms sp x.text ++ rest) (dressParts x.start x.stop (parts (tokenSyms sp x.text)) ++ ps) =
      items (chunkStyle σ c) c.text ++ symItems (chunkAfter σ c) rest ps := by
  intro x
  obtain ⟨h1, h2, h3⟩ := tokenSyms_ok hl c.text hg.full
  have hx : x.text = c.text := rfl
  have hlen := dressParts_length x.start x.stop (parts (tokenSyms sp x.text))
  have e1 : (if x.start = [] then σ else turnOn σ x.start) = chunkStyle σ c := by
    unfold chunkStyle
    cases e : c.start with
    | none => simp [x, chunkSpan, e, seqRunes]
    | some s =>
      have : ¬ (seqRunes c.start = []) := by rw [seqRunes_nil, e]; simp
      simp only [x, chunkSpan]
      rw [if_neg this, e]; rfl
  rw [symItems_append]
  congr 1
  · rw [← symItems_take, ← hlen, List.take_left, symItems_dress _ _ (hx ▸ h1) _ _ (hx ▸ h2), e1, hx, h3]
  · rw [← hlen, List.take_left, List.drop_left, after_dress _ _ _ _ (hx ▸ h2), e1]
    congr 1
    unfold chunkAfter
    cases e : c.stop with
    | none => simp [x, chunkSpan, e, seqRunes]
    | some s =>
      have : ¬ (seqRunes c.stop = []) := by rw [seqRunes_nil, e]; simp
      simp only [x, chunkSpan]
      rw [if_neg this]

theorem symItems_word {env : Env} (σ : Style) (w : List Chunk) (hg : ∀ c ∈ w, c.Good env) (rest : List Sym) (ps : List Piece) :
    symItems σ (spansSyms sp (w.map chunkSpan) ++ rest)
        ((w.map chunkSpan).flatMap (fun x => dressParts x.start x.stop (parts (tokenSyms sp x.text))) ++ ps) =
      wordItems σ w ++ symItems (wordAfter σ w) rest ps := by
  induction w generalizing σ with
  | nil => rfl
  | cons c w ih =>
    have := symItems_chunk hl σ c (hg c (by simp)) (spansSyms sp (w.map chunkSpan) ++ rest)
      ((w.map chunkSpan).flatMap (fun x => dressParts x.start x.stop (parts (tokenSyms sp x.text))) ++ ps)
    rw [ih _ (fun c hc => hg c (by simp [hc]))] at this
    simp only [spansSyms, List.map_cons, List.flatMap_cons, List.append_assoc, wordItems] at this ⊢
    exact this

theorem paraItems_syms {env : Env} (σ : Style) (words : List (List Chunk)) (hg : ∀ w ∈ words, ∀ c ∈ w, c.Good env) :
    paraItems σ words = symItems σ (styledSyms sp (spansOf words)) (styledPieces sp (spansOf words)) := by
  induction words generalizing σ with
  | nil => rfl
  | cons w words ih =>
    have ih' := ih (wordAfter σ w) (fun w hw => hg w (by simp [hw]))
    cases words with
    | nil =>
      have := symItems_word hl σ w (hg w (by simp)) [] []
      simp only [List.append_nil, symItems] at this
      simp only [spansOf, List.map_cons, List.map_nil, styledSyms, styledPieces, List.flatMap_cons, List.flatMap_nil,
        List.append_nil, paraItems]
      exact this.symm
    | cons u us =>
      have := symItems_word hl σ w (hg w (by simp)) (.gap :: styledSyms sp (spansOf (u :: us)))
        (styledPieces sp (spansOf (u :: us)))
      rw [symItems_gap, ← ih'] at this
      exact this.symm

end

/-! ## What is shown -/

theorem _root_.Verif.Spec.LB.Shows.append {env : Env} {σ τ υ : Style} {l m : List Rune} {a b : List Cell} (h : Shows env σ l a τ)
    (h' : Shows env τ m b υ) : Shows env σ (l ++ m) (a ++ b) υ := by
  induction h with
  | nil σ => exact h'
  | rune h1 _ ih => exact .rune h1 (ih h')
  | start h1 h2 _ ih => rw [List.append_assoc]; exact .start h1 h2 (ih h')
  | stop h1 h2 _ ih => rw [List.append_assoc]; exact .stop h1 h2 (ih h')

theorem shows_text {env : Env} (σ : Style) (t : List Rune) (h : (0x1B : Rune) ∉ t) :
    Shows env σ t (t.map (fun r => ⟨r, σ⟩)) σ := by
  induction t with
  | nil => exact .nil σ
  | cons r t ih => exact .rune (by rintro rfl; exact h (by simp)) (ih (fun h' => h (by simp [h'])))

theorem expand_append (g : List Rune) (a b : List Item) : expand g (a ++ b) = expand g a ++ expand g b := by
  induction a with
  | nil => rfl
  | cons x a ih => cases x <;> simp [expand, ih]

theorem expand_items (g : List Rune) (σ : Style) (t : List Rune) : expand g (items σ t) = t.map (fun r => ⟨r, σ⟩) := by
  induction t with
  | nil => rfl
  | cons r t ih =>
    have : items σ (r :: t) = .cell ⟨r, σ⟩ :: items σ t := rfl
    rw [this]
    simp [expand, ih]

theorem shows_piece {env : Env} {p : Piece} (hp : GoodPiece env p) (σ : Style) :
    Shows env σ (p.start ++ p.text ++ p.stop) (p.text.map (fun r => ⟨r, pieceStyle σ p⟩)) (pieceAfter σ p) := by
  have h1 : Shows env σ p.start [] (pieceStyle σ p) := by
    rcases hp.start with e | ⟨s, h1, _, h2, e⟩
    · rw [pieceStyle, e, if_pos rfl]; exact .nil _
    · have : ¬ p.start = [] := by rw [e]; simp [CtlSeq.runes]
      rw [pieceStyle, if_neg this, e, ← List.append_nil s.runes]
      simpa using Shows.start (l := []) h1 h2 (.nil _)
  have h2 : Shows env (pieceStyle σ p) p.stop [] (pieceAfter σ p) := by
    rcases hp.stop with e | ⟨s, h1, _, h2, e⟩
    · rw [pieceAfter, e, if_pos rfl]; exact .nil _
    · have : ¬ p.stop = [] := by rw [e]; simp [CtlSeq.runes]
      rw [pieceAfter, if_neg this, e, ← List.append_nil s.runes]
      exact Shows.stop h1 h2 (.nil _)
  simpa using (h1.append (shows_text _ _ hp.text)).append h2

theorem shows_dress {env : Env} {g : List Rune} (hg : (0x1B : Rune) ∉ g) (σ : Style) (body : List Sym) (ps : List Piece)
    (hp : ∀ p ∈ ps, GoodPiece env p) :
    Shows env σ (dress g body ps) (expand g (symItems σ body ps)) (styleAfter σ (ps.take (parts body).length)) := by
  induction body generalizing σ ps with
  | nil => simp [dress, symItems, expand, parts, styleAfter]; exact .nil _
  | cons s body ih =>
    cases s with
    | part t =>
      cases ps with
      | nil => simpa [dress, symItems] using ih σ [] (by simp)
      | cons p ps =>
        simp only [dress, symItems, parts, List.length_cons, List.take_succ_cons]
        rw [expand_append, expand_items]
        exact (shows_piece (hp p (by simp)) σ).append (ih _ ps (fun q hq => hp q (by simp [hq])))
    | gap =>
      rw [symItems_gap]
      simp only [dress, expand, parts]
      exact (shows_text σ g hg).append (ih σ ps hp)
    | soft => exact ih σ ps hp
    | mark => exact ih σ ps hp
    | hard => exact ih σ ps hp

/-! ## Styles at the ends of lines -/

theorem after_closed (ps : List Piece) (o : List (List Rune)) (σ : Style) (h : o = [] → σ = [])
    (hc : openAfter o ps = []) : styleAfter σ ps = [] := by
  induction ps generalizing o σ with
  | nil => exact h hc
  | cons p ps ih =>
    simp only [openAfter] at hc
    refine ih _ (pieceAfter σ p) ?_ hc
    intro e
    unfold pieceAfter pieceStyle
    split
    · rename_i h1
      rw [if_pos h1] at e
      split
      · rename_i h2; rw [if_pos h2] at e; exact h e
      · rename_i h2; rw [if_neg h2] at e; simp at e
    · rfl

theorem styleAfter_append (σ : Style) (a b : List Piece) : styleAfter σ (a ++ b) = styleAfter (styleAfter σ a) b := by simp [styleAfter]

theorem after_plain {a : List Piece} (h : Plain a) (σ : Style) : styleAfter σ a = σ := by
  induction h generalizing σ with
  | nil => rfl
  | cons t _ ih => simp only [styleAfter, List.foldl_cons] at ih ⊢; simp [pieceAfter, pieceStyle, ih]

theorem openAfter_append (o : List (List Rune)) (a b : List Piece) : openAfter o (a ++ b) = openAfter (openAfter o a) b := by
  induction a generalizing o with
  | nil => rfl
  | cons p a ih => simp only [List.cons_append, openAfter]; rw [ih]

theorem openAfter_plain {a : List Piece} (h : Plain a) (o : List (List Rune)) : openAfter o a = o := by
  induction h generalizing o with
  | nil => rfl
  | cons t _ ih => simp [openAfter, ih]

theorem plain_take {a : List Piece} (h : Plain a) (n : Nat) : Plain (a.take n) := by
  induction h generalizing n with
  | nil => simp; exact .nil
  | cons t _ ih => cases n with
    | zero => exact .nil
    | succ n => exact .cons t (ih n)

theorem plain_drop {a : List Piece} (h : Plain a) (n : Nat) : Plain (a.drop n) := by
  induction h generalizing n with
  | nil => simp; exact .nil
  | cons t h ih => cases n with
    | zero => exact .cons t h
    | succ n => exact ih n

theorem closing_nil (ps : List Piece) : closing [] ps = [] ∧ ∀ n, closing (List.replicate n false) ps = [] := by
  have h : ∀ n, closing (List.replicate n false) ps = [] := by
    induction ps with
    | nil => intro n; rfl
    | cons p ps ih =>
      intro n
      have h0 := ih 0
      simp only [List.replicate_zero] at h0
      simp only [closing]
      by_cases h1 : p.start = [] <;> by_cases h2 : p.stop = []
      · simpa [h1, h2] using ih n
      · cases n with
        | zero => simpa [h1, h2] using h0
        | succ n => simpa [h1, h2, List.replicate_succ] using ih n
      · simpa [h1, h2, List.replicate_succ] using ih (n + 1)
      · simpa [h1, h2] using ih n
  exact ⟨by simpa using h 0, h⟩

theorem closing_plain {a : List Piece} (h : Plain a) (m : List Bool) (b : List Piece) :
    closing m (a ++ b) = closing m b := by
  induction h with
  | nil => rfl
  | cons t _ ih => simpa [closing] using ih

/-- **At a clean cut, the styles are closed and opened again.** -/
theorem clean_shows {env : Env} {P : List Piece} (hP : ∀ p ∈ P, GoodPiece env p) (hc : openAfter [] P = []) {k : Nat}
    (h : Clean P k) : Shows env [] (resumed P k) [] (styleAfter [] (P.take k)) ∧
      Shows env (styleAfter [] (P.take k)) (closed P k) [] [] := by
  cases h with
  | out h =>
    have e : styleAfter [] (P.take k) = [] := after_closed _ [] [] (fun _ => rfl) h.1
    unfold resumed closed
    rw [e, h.1]
    simp only [List.flatten_nil, List.length_nil, List.replicate_zero, (closing_nil _).1]
    exact ⟨.nil _, .nil _⟩
  | inRun pre mid tail t start j h1 h2 h3 h4 h5 h6 h7 h8 =>
    have et : P.take k = pre ++ ⟨t, start, []⟩ :: mid.take j := by
      rw [h1, h2, List.take_append, show pre.length + 1 + j - pre.length = j + 1 by omega, List.take_succ_cons,
        List.take_append_of_le_length h3, List.take_of_length_le (by omega)]
    have ed : P.drop k = mid.drop j ++ tail := by
      rw [h1, h2, List.drop_append, show pre.length + 1 + j - pre.length = j + 1 by omega, List.drop_succ_cons,
        List.drop_append_of_le_length h3, List.drop_of_length_le (by omega), List.nil_append]
    have eo : openAfter [] (P.take k) = [start] := by
      rw [et, openAfter_append, h5.1]
      simp only [openAfter, if_neg h4, if_true, List.nil_append]
      exact openAfter_plain (plain_take h7 j) _
    have ea : styleAfter [] (P.take k) = [start] := by
      rw [et, styleAfter_append, after_closed pre [] [] (fun _ => rfl) h5.1]
      have : styleAfter [] (⟨t, start, []⟩ :: mid.take j) = styleAfter (pieceAfter [] ⟨t, start, []⟩) (mid.take j) := rfl
      rw [this, after_plain (plain_take h7 j)]
      simp [pieceAfter, pieceStyle, h4, turnOn]
    have hs : ∃ s : CtlSeq, s.WellFormed env ∧ s.Starts ∧ start = s.runes := by
      rcases (hP ⟨t, start, []⟩ (by rw [h1]; simp)).start with e | e
      · exact absurd e h4
      · exact e.imp (fun s h => ⟨h.1, h.2.2⟩)
    obtain ⟨s, hs1, hs2, hs3⟩ := hs
    unfold resumed closed
    rw [eo, ea, ed, closing_plain (plain_drop h7 j)]
    constructor
    · rw [hs3]
      have := Shows.start (σ := []) (l := []) hs1 hs2 (.nil _)
      simpa [turnOn] using this
    · rcases h8 with rfl | ⟨t', stop, rest, rfl, h9, _⟩
      · rw [h1, openAfter_append, h5.1, List.append_nil] at hc
        simp only [openAfter, if_neg h4, if_true, List.nil_append] at hc
        rw [openAfter_plain h7] at hc
        cases hc
      · have hq := (hP ⟨t', [], stop⟩ (by rw [h1]; simp)).stop
        rcases hq with e | ⟨s', k1, _, k2, k3⟩
        · exact absurd e h9
        · have e3 : closing (List.replicate [start].length true) (⟨t', [], stop⟩ :: rest) = [stop] := by
            simp [closing, h9, (closing_nil rest).1]
          rw [e3]
          simp only at k3
          rw [k3]
          simpa using Shows.stop (σ := [start]) (l := []) k1 k2 (.nil _)

/-! ## Lines -/

theorem line_shows {env : Env} {g : List Rune} (hg : (0x1B : Rune) ∉ g) {P : List Piece} (hP : ∀ p ∈ P, GoodPiece env p)
    (hc : openAfter [] P = []) {k : Nat} {body : List Sym} (hb : StartsWithPart body) (hlen : k < P.length)
    (hk : k = 0 ∨ Clean P k) (hk' : Clean P (k + (parts body).length)) {e : List Rune} (he : (0x1B : Rune) ∉ e) :
    Shows env [] (resumed P (max k 1) ++ dress g body (P.drop k) ++ e ++ closed P (k + (parts body).length))
      (expand g (symItems (styleAfter [] (P.take k)) body (P.drop k)) ++
        e.map (fun r => ⟨r, styleAfter [] (P.take (k + (parts body).length))⟩)) [] := by
  have hd : ∀ p ∈ P.drop k, GoodPiece env p := fun p hp => hP p (List.mem_of_mem_drop hp)
  have hend := (clean_shows hP hc hk').2
  have htake : styleAfter [] (P.take (k + (parts body).length)) =
      styleAfter (styleAfter [] (P.take k)) ((P.drop k).take (parts body).length) := by
    rw [List.take_add, styleAfter_append]
  have hmain : Shows env [] (resumed P (max k 1) ++ dress g body (P.drop k))
      (expand g (symItems (styleAfter [] (P.take k)) body (P.drop k)))
      (styleAfter [] (P.take (k + (parts body).length))) := by
    by_cases h0 : k = 0
    · subst h0
      obtain ⟨p, P', rfl⟩ : ∃ p P', P = p :: P' := by
        cases P with
        | nil => simp at hlen
        | cons p P' => exact ⟨p, P', rfl⟩
      obtain ⟨t, r, rfl⟩ := hb
      simp only [List.drop_zero, List.take_zero, show max 0 1 = 1 from rfl] at htake ⊢
      rw [htake]
      have h2 := shows_dress hg [] (.part t :: r) (p :: P') hP
      by_cases h3 : p.start ≠ [] ∧ p.stop = []
      · obtain ⟨h3, h4⟩ := h3
        have e1 : resumed (p :: P') 1 = p.start := by simp [resumed, openAfter, h3, h4]
        rw [e1]
        rcases (hP p (by simp)).start with e | ⟨s, k1, _, k2, k3⟩
        · exact absurd e h3
        · have h5 : Shows env [] p.start [] [p.start] := by
            rw [k3]
            have := Shows.start (σ := []) (l := []) k1 k2 (.nil _)
            simpa [turnOn] using this
          have h6 := shows_dress hg [p.start] (.part t :: r) (p :: P') hP
          have e2 : pieceStyle [p.start] p = pieceStyle [] p := by simp [pieceStyle, turnOn, h3]
          have e3 : pieceAfter [p.start] p = pieceAfter [] p := by simp [pieceAfter, h4, e2]
          have e4 : symItems [p.start] (.part t :: r) (p :: P') = symItems [] (.part t :: r) (p :: P') := by
            simp only [symItems]; rw [e2, e3]
          have e5 : styleAfter [p.start] ((p :: P').take (parts (.part t :: r)).length) =
              styleAfter [] ((p :: P').take (parts (.part t :: r)).length) := by
            simp only [parts, List.length_cons, List.take_succ_cons, styleAfter, List.foldl_cons]
            rw [e3]
          rw [e4, e5] at h6
          exact h5.append h6
      · have e1 : resumed (p :: P') 1 = [] := by
          simp only [resumed, List.take_succ_cons, List.take_zero, openAfter]
          by_cases h4 : p.start = []
          · simp [h4]
          · by_cases h5 : p.stop = []
            · exact absurd ⟨h4, h5⟩ h3
            · simp [h4, h5]
        rw [e1]
        exact h2
    · have hcl : Clean P k := hk.resolve_left h0
      rw [show max k 1 = k by omega, htake]
      exact (clean_shows hP hc hcl).1.append (shows_dress hg _ body _ hd)
  have := (hmain.append (shows_text _ e he)).append hend
  simpa using this

theorem symItems_last (σ : Style) (q : List Sym) (v : List Rune) (ps : List Piece) (hv : v ≠ [])
    (ht : parts (q ++ [.part v]) <+: ps.map Piece.text) :
    ∃ q' c, symItems σ (q ++ [.part v]) ps = q' ++ [.cell c] := by
  rw [symItems_append]
  have hd : [v] <+: (ps.drop (parts q).length).map Piece.text := by
    rw [parts_append] at ht
    obtain ⟨w, hw⟩ := ht
    refine ⟨w, ?_⟩
    rw [List.map_drop, ← hw]
    simp [parts]
  cases hq : ps.drop (parts q).length with
  | nil => rw [hq] at hd; simp at hd
  | cons p ps' =>
    rw [hq] at hd
    obtain ⟨w, hw⟩ := hd
    have e : p.text = v := by
      simp at hw; exact hw.1.symm
    rcases List.eq_nil_or_concat v with rfl | ⟨v', b, rfl⟩
    · exact absurd rfl hv
    · simp only [symItems, List.append_nil]
      rw [e]
      generalize pieceStyle (styleAfter σ (List.take (parts q).length ps)) p = τ
      refine ⟨symItems σ q ps ++ items τ v', ⟨b, τ⟩, ?_⟩
      rw [List.concat_eq_append, items_append, ← List.append_assoc]
      rfl

theorem symItems_first (σ : Style) (u : List Rune) (r : List Sym) (ps : List Piece) (hu : u ≠ [])
    (ht : u :: parts r = ps.map Piece.text) :
    ∃ c q, symItems σ (.part u :: r) ps = .cell c :: q := by
  cases ps with
  | nil => cases ht
  | cons p ps =>
    have e : p.text = u := by simp at ht; exact ht.1.symm
    obtain ⟨a, u', rfl⟩ := List.exists_cons_of_ne_nil hu
    exact ⟨⟨a, pieceStyle σ p⟩, items (pieceStyle σ p) u' ++ symItems (pieceAfter σ p) r ps, by
      simp [symItems, e, items]⟩

/-- **The display of a layout.** -/
theorem layout_displays {env : Env} {hy : Sym → List Rune} {Q : Bool → List Sym → Option Sym → Prop} {first : Bool}
    {ss : List Sym} {ls : List Line} (h : Layout hy Q false first ss ls) {g : List Rune} (hg : (0x1B : Rune) ∉ g)
    (hhy : ∀ s, hy s = [] ∨ hy s = [0x2D]) {P : List Piece} (hP : ∀ p ∈ P, GoodPiece env p) (hc : openAfter [] P = [])
    (k : Nat) (ht : parts ss = (P.drop k).map Piece.text) (hch : ss.IsChain Adj) (hf : .part [] ∉ ss)
    (hk : k = 0 ∨ Clean P k) (hcut : ∀ c ∈ cuts k ls, Clean P c) :
    Displays env g (symItems (styleAfter [] (P.take k)) ss (P.drop k)) (styledLines g P k ls) := by
  have hlt : ∀ {k : Nat} {ss : List Sym}, StartsWithPart ss → parts ss = (P.drop k).map Piece.text → k < P.length := by
    rintro k _ ⟨t, r, rfl⟩ h
    by_contra hn
    rw [List.drop_of_length_le (by omega)] at h
    simp [parts] at h
  induction h generalizing k with
  | blankLine h => cases h
  | lastBlank h => cases h
  | blankAfter _ h => cases h
  | last p h1 _ =>
    simp only [styledLines]
    refine .last ?_
    have := line_shows hg hP hc h1 (hlt h1 ht) hk (hcut _ (by simp [cuts])) (e := []) (by simp)
    simpa using this
  | @brk first p s x rest lines h1 h2 h3 h4 h5 ih =>
    have hx : x = [] ∨ x = [0x2D] := by
      rcases h3 with e | ⟨_, e⟩
      · rw [e]; exact hhy s
      · exact Or.inl e
    have hxe : (0x1B : Rune) ∉ x := by rcases hx with rfl | rfl <;> simp
    have hps : parts (s :: rest) = parts rest := by
      cases s with
      | part t => exact absurd rfl (h2 t)
      | _ => rfl
    have hst := layout_starts h5
    have hs1 : StartsWithPart (p ++ s :: rest) := by
      obtain ⟨t, r, e⟩ := h1
      exact ⟨t, r ++ s :: rest, by rw [e]; rfl⟩
    have hline := line_shows hg hP hc h1 (hlt hs1 ht) hk (hcut _ (by simp [cuts])) hxe
    generalize hn : k + (parts p).length = n at hline
    have htn : parts rest = (P.drop n).map Piece.text := by
      rw [parts_append, hps] at ht
      have := congrArg (List.drop (parts p).length) ht
      rw [List.drop_left, ← List.map_drop, List.drop_drop, hn] at this
      exact this
    have hsty : styleAfter (styleAfter [] (P.take k)) ((P.drop k).take (parts p).length) = styleAfter [] (P.take n) := by
      rw [← hn, List.take_add, styleAfter_append]
    have hsplit : symItems (styleAfter [] (P.take k)) (p ++ s :: rest) (P.drop k) =
        symItems (styleAfter [] (P.take k)) p (P.drop k) ++ symItems (styleAfter [] (P.take n)) (s :: rest) (P.drop n) := by
      rw [symItems_append, hsty, List.drop_drop, hn]
    have hcl : Clean P n := hcut n (by simp [cuts, hn])
    have hcut' : ∀ c ∈ cuts n lines, Clean P c := fun c hc' => hcut c (by simp [cuts, hn, hc'])
    have hmk : ∀ r : List Sym, symItems (styleAfter [] (P.take n)) (.mark :: r) (P.drop n) =
        symItems (styleAfter [] (P.take n)) r (P.drop n) := fun r => by simp [symItems]
    rw [List.isChain_append] at hch
    obtain ⟨hc1, hc2, hc3⟩ := hch
    simp only [styledLines, hn]
    rw [hsplit]
    cases rest with
    | nil => obtain ⟨t, r, e⟩ := hst; simp [startLine] at e
    | cons z r =>
      have hzf : ∀ u, z = .part u → u ≠ [] := by
        rintro u rfl rfl; exact hf (by simp)
      rw [List.isChain_cons_cons] at hc2
      by_cases hz : ∃ u, z = .part u
      · obtain ⟨u, rfl⟩ := hz
        have hi := ih n htn hc2.2 (by intro hm; exact hf (by simp [show startLine (.part u :: r) = .part u :: r from rfl] at hm ⊢; right; right; exact hm))
          (Or.inr hcl) hcut'
        rw [show startLine (.part u :: r) = .part u :: r from rfl] at hi
        cases s with
        | part t => exact absurd rfl (h2 t)
        | gap =>
          rw [symItems_gap]
          exact .gap hx hline hi
        | _ =>
          all_goals
            obtain ⟨q, y, hq⟩ : ∃ q y, p = q ++ [y] := by
              rcases List.eq_nil_or_concat p with e | ⟨q, y, e⟩
              · obtain ⟨t, r, e'⟩ := h1; rw [e] at e'; cases e'
              · exact ⟨q, y, by rw [e, List.concat_eq_append]⟩
            have := hc3 y (by rw [hq]; simp) _ (by simp; rfl)
            obtain ⟨v, rfl⟩ : ∃ v, y = .part v := by
              rcases this with h | ⟨t, h⟩ | ⟨_, h⟩
              · exact h
              · cases h
              · cases h
            have hv : v ≠ [] := by
              rintro rfl
              exact hf (by rw [hq]; simp)
            obtain ⟨q', c, e1⟩ := symItems_last (styleAfter [] (P.take k)) q v (P.drop k) hv
              (by rw [← hq, ← ht, parts_append]; exact List.prefix_append _ _)
            rw [← hq] at e1
            obtain ⟨c', q'', e2⟩ := symItems_first (styleAfter [] (P.take n)) u r (P.drop n) (hzf u rfl) htn
            rw [e1] at hline ⊢
            rw [e2] at hi
            simp only [symItems]
            rw [e2]
            have := Displays.inside hx hline hi
            simpa using this
      · have hgap : (s = .mark ∨ s = .hard) ∧ z = .gap := by
          rcases hc2.1 with ⟨t, h⟩ | h | h
          · exact absurd h (h2 t)
          · exact absurd h hz
          · exact h
        obtain ⟨hs, rfl⟩ := hgap
        cases r with
        | nil => obtain ⟨t, r, e⟩ := hst; simp [startLine] at e
        | cons w r =>
          rw [List.isChain_cons_cons] at hc2
          obtain ⟨u, rfl⟩ : ∃ u, w = .part u := by
            rcases hc2.2.1 with ⟨t, h⟩ | h | ⟨h, _⟩
            · cases h
            · exact h
            · rcases h with h | h <;> cases h
          have hi := ih n htn hc2.2.2 (by intro hm; exact hf (by simp [startLine] at hm ⊢; right; right; exact hm))
            (Or.inr hcl) hcut'
          rw [show startLine (.gap :: .part u :: r) = .part u :: r from rfl] at hi
          have e : symItems (styleAfter [] (P.take n)) (s :: .gap :: .part u :: r) (P.drop n) =
              .gap (styleAfter [] (P.take n)) :: symItems (styleAfter [] (P.take n)) (.part u :: r) (P.drop n) := by
            rw [← symItems_gap]
            rcases hs with rfl | rfl <;> simp only [symItems]
          rw [e]
          exact .gap hx hline hi

/-! ## Symbols and pieces of words made of chunks -/

section
variable {sp : Splitter} (hl : sp.Lossless)
include hl

theorem spans_token (xs : List Span) (hne : xs ≠ []) (hx : ∀ x ∈ xs, x.text ≠ []) : Token (spansSyms sp xs) := by
  induction xs with
  | nil => exact absurd rfl hne
  | cons x xs ih =>
    have h1 := (token_token hl x.text (hx x (by simp))).1
    by_cases h : xs = []
    · subst h; simpa [spansSyms] using h1
    · exact h1.append (ih h (fun y hy => hx y (by simp [hy])))

theorem styled_chain (tks : List (List Span)) (h : ∀ t ∈ tks, t ≠ [] ∧ ∀ x ∈ t, x.text ≠ []) :
    (styledSyms sp tks).IsChain Adj ∧ .part [] ∉ styledSyms sp tks := by
  induction tks with
  | nil => simp [styledSyms]
  | cons t tks ih =>
    have ht := spans_token hl t (h t (by simp)).1 (h t (by simp)).2
    cases tks with
    | nil => exact ⟨ht.chain, ht.full⟩
    | cons u us =>
      have ih' := ih (fun t ht => h t (by simp [ht]))
      have hu := spans_token hl u (h u (by simp)).1 (h u (by simp)).2
      have hhead : ∀ y ∈ (styledSyms sp (u :: us)).head?, ∃ w, y = .part w := by
        intro y hy
        refine hu.head y ?_
        cases us with
        | nil => exact hy
        | cons v vs =>
          have : styledSyms sp (u :: v :: vs) = spansSyms sp u ++ .gap :: styledSyms sp (v :: vs) := rfl
          rw [this, List.head?_append_of_ne_nil _ hu.ne] at hy
          exact hy
      simp only [styledSyms]
      constructor
      · rw [List.isChain_append]
        refine ⟨ht.chain, ?_, ?_⟩
        · rw [List.isChain_cons]
          exact ⟨fun y hy => Or.inr (Or.inl (hhead y hy)), ih'.1⟩
        · intro x hx y hy
          simp at hy
          subst hy
          rcases ht.last x hx with h | h
          · exact Or.inl h
          · exact Or.inr (Or.inr ⟨h, rfl⟩)
      · simp only [List.mem_append, List.mem_cons, reduceCtorEq, false_or, not_or]
        exact ⟨ht.full, ih'.2⟩

theorem styled_good {env : Env} {words : List (List Chunk)} (hw : ∀ w ∈ words, ∀ c ∈ w, c.Good env) :
    ∀ p ∈ styledPieces sp (spansOf words), GoodPiece env p := by
  intro p hp
  obtain ⟨t, ht, hp⟩ := List.mem_flatMap.mp hp
  obtain ⟨w, hwm, rfl⟩ := List.mem_map.mp ht
  obtain ⟨x, hx, hp⟩ := List.mem_flatMap.mp hp
  obtain ⟨c, hcm, rfl⟩ := List.mem_map.mp hx
  have hg := hw w hwm c hcm
  obtain ⟨_, _, h3⟩ := tokenSyms_ok hl c.text hg.full
  have hs : ∀ s : CtlSeq, ∀ o, o = some s → seqRunes o = s.runes := by rintro s _ rfl; rfl
  have gen : ∀ (ts : List (List Rune)) (start stop : List Rune), (∀ u ∈ ts, (0x1B : Rune) ∉ u) → 
      ∀ p ∈ dressParts start stop ts, (0x1B : Rune) ∉ p.text ∧ (p.start = [] ∨ p.start = start) ∧ (p.stop = [] ∨ p.stop = stop) := by
    intro ts
    induction ts with
    | nil => intro start stop _ p hp; cases hp
    | cons u us ih =>
      intro start stop hu p hp
      cases us with
      | nil =>
        simp only [dressParts, List.mem_singleton] at hp
        subst hp
        exact ⟨hu u (by simp), Or.inr rfl, Or.inr rfl⟩
      | cons v vs =>
        simp only [dressParts] at hp
        rcases List.mem_cons.mp hp with rfl | hp
        · exact ⟨hu u (by simp), Or.inr rfl, Or.inl rfl⟩
        · obtain ⟨a, b, c⟩ := ih [] stop (fun w hw => hu w (by simp [hw])) p hp
          exact ⟨a, Or.inl (by rcases b with b | b <;> exact b), c⟩
  obtain ⟨a, b, d⟩ := gen _ _ _ (by
    intro u hu hm
    refine hg.text ?_
    rw [← h3]
    exact List.mem_flatten.mpr ⟨u, hu, hm⟩) p hp
  refine ⟨a, ?_, ?_⟩
  · rcases b with b | b
    · exact Or.inl b
    · cases e : c.start with
      | none => left; rw [b]; simp [chunkSpan, e, seqRunes]
      | some s => right; exact ⟨s, (hg.start s e).1, (hg.start s e).2.1, (hg.start s e).2.2, by rw [b]; simp [chunkSpan, e, seqRunes]⟩
  · rcases d with d | d
    · exact Or.inl d
    · cases e : c.stop with
      | none => left; rw [d]; simp [chunkSpan, e, seqRunes]
      | some s => right; exact ⟨s, (hg.stop s e).1, (hg.stop s e).2.1, (hg.stop s e).2.2, by rw [d]; simp [chunkSpan, e, seqRunes]⟩

end

/-! ## Without the sequences -/

theorem _root_.Verif.Spec.LB.Visible.append {env : Env} {l m v w : List Rune} (h : Visible env l v) (h' : Visible env m w) :
    Visible env (l ++ m) (v ++ w) := by
  induction h with
  | nil => exact h'
  | rune h1 _ ih => exact .rune h1 ih
  | seq h1 _ ih => rw [List.append_assoc]; exact .seq h1 ih

theorem visible_text {env : Env} (t : List Rune) (h : (0x1B : Rune) ∉ t) : Visible env t t := by
  induction t with
  | nil => exact .nil
  | cons r t ih => exact .rune (by rintro rfl; exact h (by simp)) (ih (fun h' => h (by simp [h'])))

theorem seq_split {env : Env} {s s' : CtlSeq} (h : s.WellFormed env) (h' : s'.WellFormed env) {l l' : List Rune}
    (e : s.runes ++ l = s'.runes ++ l') : l = l' := by
  have body : ∀ s : CtlSeq, s.WellFormed env →
      ∀ r ∈ s.first ++ s.more.flatMap (fun p => p.1 :: p.2), env.isDigit r = true ∨ IsSep r := by
    intro s h r hr
    rcases List.mem_append.mp hr with hr | hr
    · exact Or.inl (h.first r hr)
    · obtain ⟨p, hp, hr⟩ := List.mem_flatMap.mp hr
      rcases List.mem_cons.mp hr with rfl | hr
      · exact Or.inr (h.more p hp).1
      · exact Or.inl ((h.more p hp).2 r hr)
  have gen : ∀ (a b : List Rune) (x y : Rune), (∀ r ∈ a, env.isDigit r = true ∨ IsSep r) →
      (∀ r ∈ b, env.isDigit r = true ∨ IsSep r) → (env.isDigit x = false ∧ ¬ IsSep x) →
      (env.isDigit y = false ∧ ¬ IsSep y) → a ++ x :: l = b ++ y :: l' → l = l' := by
    intro a
    induction a with
    | nil =>
      intro b x y _ hb hx _ e
      cases b with
      | nil => simp at e; exact e.2
      | cons r b =>
        simp at e
        have := hb r (by simp)
        rw [← e.1, hx.1] at this
        rcases this with h | h
        · cases h
        · exact absurd h hx.2
    | cons r a ih =>
      intro b x y ha hb hx hy e
      cases b with
      | nil =>
        simp at e
        have := ha r (by simp)
        rw [e.1, hy.1] at this
        rcases this with h | h
        · cases h
        · exact absurd h hy.2
      | cons r' b =>
        simp at e
        exact ih b x y (fun r hr => ha r (by simp [hr])) (fun r hr => hb r (by simp [hr])) hx hy e.2
  refine gen _ _ s.key s'.key (body s h) (body s' h') h.key h'.key ?_
  simpa [CtlSeq.runes, introducer] using e

/-- There is only one text without its sequences. -/
theorem visible_unique {env : Env} {l v v' : List Rune} (h : Visible env l v) (h' : Visible env l v') : v = v' := by
  induction h generalizing v' with
  | nil =>
    generalize e : ([] : List Rune) = l at h'
    cases h' with
    | nil => rfl
    | rune => cases e
    | seq => simp [CtlSeq.runes, introducer] at e
  | @rune r l v h1 _ ih =>
    generalize e : r :: l = l' at h'
    cases h' with
    | nil => cases e
    | rune _ h2 => cases e; rw [ih h2]
    | seq =>
      simp [CtlSeq.runes, introducer] at e
      exact absurd e.1 h1
  | @seq s l v h1 _ ih =>
    generalize e : s.runes ++ l = l' at h'
    cases h' with
    | nil => simp [CtlSeq.runes, introducer] at e
    | rune h2 _ =>
      simp [CtlSeq.runes, introducer] at e
      exact absurd e.1.symm h2
    | seq h2 h3 =>
      have := seq_split h1 h2 e
      subst this
      exact ih h3

theorem visible_seqs {env : Env} (a : List (List Rune)) (h : ∀ x ∈ a, x = [] ∨ ∃ s : CtlSeq, s.WellFormed env ∧ x = s.runes) :
    Visible env a.flatten [] := by
  induction a with
  | nil => exact .nil
  | cons x a ih =>
    have ih' := ih (fun y hy => h y (by simp [hy]))
    rw [List.flatten_cons]
    rcases h x (by simp) with rfl | ⟨s, h1, rfl⟩
    · exact ih'
    · exact .seq h1 ih'

theorem visible_dress {env : Env} {g : List Rune} (hg : (0x1B : Rune) ∉ g) (body : List Sym) (ps : List Piece)
    (hp : ∀ p ∈ ps, GoodPiece env p) (ht : parts body <+: ps.map Piece.text) :
    Visible env (dress g body ps) (lineText g body) := by
  induction body generalizing ps with
  | nil => exact .nil
  | cons s body ih =>
    cases s with
    | part t =>
      cases ps with
      | nil => simp [parts] at ht
      | cons p ps =>
        simp only [parts, List.map_cons, List.cons_prefix_cons] at ht
        simp only [dress, lineText]
        have hg' := hp p (by simp)
        have h1 : Visible env p.start [] := by
          rcases hg'.start with e | ⟨s, a, _, _, e⟩
          · rw [e]; exact .nil
          · rw [e]; simpa using Visible.seq (l := []) a .nil
        have h2 : Visible env p.stop [] := by
          rcases hg'.stop with e | ⟨s, a, _, _, e⟩
          · rw [e]; exact .nil
          · rw [e]; simpa using Visible.seq (l := []) a .nil
        have := ((h1.append (visible_text _ hg'.text)).append h2).append (ih ps (fun q hq => hp q (by simp [hq])) ht.2)
        rw [ht.1]
        simpa using this
    | gap => exact (visible_text g hg).append (ih ps hp ht)
    | soft => exact ih ps hp ht
    | mark => exact ih ps hp ht
    | hard => exact ih ps hp ht

/-- **The visible text of lines.** -/
theorem wrapped_visible {env : Env} {g : List Rune} (hg : (0x1B : Rune) ∉ g) {H P : List Piece}
    (hP : ∀ p ∈ H ++ P, GoodPiece env p) {k : Nat} {ls : List Line} {out : List (List Rune)}
    (h : Wrapped g ((H ++ P).map Piece.start) ((H ++ P).map Piece.stop) P k ls out)
    (ht : ls.flatMap (fun x => parts x.body) <+: (P.drop k).map Piece.text)
    (he : ∀ x ∈ ls, (0x1B : Rune) ∉ x.ending) :
    List.Forall₂ (Visible env) out (ls.map (Line.text g)) := by
  induction h with
  | nil k => exact .nil
  | @cons k line rest out a b ha hb hr ih =>
    rw [List.flatMap_cons] at ht
    rw [List.map_cons]
    refine .cons ?_ (ih ?_ (fun x hx => he x (by simp [hx])))
    · have h1 : Visible env a.flatten [] := by
        refine visible_seqs a (fun x hx => ?_)
        obtain ⟨p, hp, rfl⟩ := List.mem_map.mp (ha x hx)
        rcases (hP p hp).start with e | ⟨s, u, _, _, e⟩
        · exact Or.inl e
        · exact Or.inr ⟨s, u, e⟩
      have h2 : Visible env b.flatten [] := by
        refine visible_seqs b (fun x hx => ?_)
        obtain ⟨p, hp, rfl⟩ := List.mem_map.mp (hb x hx)
        rcases (hP p hp).stop with e | ⟨s, u, _, _, e⟩
        · exact Or.inl e
        · exact Or.inr ⟨s, u, e⟩
      have h3 := visible_dress hg line.body (P.drop k)
        (fun p hp => hP p (List.mem_append.mpr (Or.inr (List.mem_of_mem_drop hp)))) ((List.prefix_append _ _).trans ht)
      have := ((h1.append h3).append (visible_text line.ending (he line (by simp)))).append h2
      simpa [Line.text] using this
    · obtain ⟨w, hw⟩ := ht
      refine ⟨w, ?_⟩
      rw [← List.drop_drop, List.map_drop, ← hw]
      simp

theorem used_good {F : Type} [Arith F] [Laws F] {env : Env} {dict : Dictionary} {opts : List (Opt F)} {text : List Rune → Int} {n : Nat}
    {l : LineBreaker F} {hist : List Piece} (hs : Sane (defaultOptions opts) text n) (h : StyledUsed env dict opts l hist) :
    ∀ p ∈ hist, GoodPiece env p := by
  induction h with
  | new => intro p hp; cases hp
  | call rt words maxWidth r _ ht _ ih =>
    intro p hp
    rcases List.mem_append.mp hp with hp | hp
    · exact ih p hp
    · exact styled_good (lossless (env := env) (dict := dict) hs) (fun w hw => (ht w hw).good) p hp

end Verif.Proofs.LB
