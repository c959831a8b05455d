import Verif.Proofs.LBUsual
import Verif.Props.Ansi

/-! # Paragraphs without escape sequences -/

set_option linter.unusedSectionVars false
set_option linter.unusedSimpArgs false

namespace Verif.Proofs.LB
open Verif.Go Verif.Model Verif.Model.LB Verif.Spec Verif.Spec.Ansi Verif.Spec.LB Verif.Props

variable {F : Type} [Arith F]

/-- The span of a text without escape sequences. -/
def bare (t : List Rune) : List Span := [⟨[], t, []⟩]

theorem strips_bare (rt : Runtime) {env : Env} (hd : AsciiDigits env) (t : List Rune)
    (hl : (t.length : Int) < 2 ^ 63) (ht : ¬ introducer <:+: t) : Strips rt env t (bare t) := by
  have he : (⟨0, t.length⟩ : View).elems (t ++ rt.spare t) = t := by simp [View.elems]
  obtain ⟨tok, h1, h2, h3, h4, _⟩ := C39_plain_text env hd (t ++ rt.spare t) ⟨0, t.length⟩
    ⟨by simp [View.Valid], hl⟩ (by rw [he]; exact ht)
  refine ⟨[tok], _, h1, ?_⟩
  rw [he] at h4
  have : textRunes (t ++ rt.spare t) tok.text = t := by
    refine Eq.trans ?_ h4
    cases tok.text <;> rfl
  simp [spanOf, h2, h3, fieldRunes, bare, this]

theorem strips_all (rt : Runtime) {env : Env} (hd : AsciiDigits env) (tokens : List (List Rune))
    (h : ∀ t ∈ tokens, (t.length : Int) < 2 ^ 63 ∧ ¬ introducer <:+: t) :
    List.Forall₂ (Strips rt env) tokens (tokens.map bare) := by
  induction tokens with
  | nil => exact .nil
  | cons t ts ih =>
    exact .cons (strips_bare rt hd t (h t (by simp)).1 (h t (by simp)).2) (ih (fun u hu => h u (by simp [hu])))

theorem parBlocks_bare (sp : Splitter) (tokens : List (List Rune)) :
    parBlocks sp (tokens.map bare) = paraBlocks sp tokens := by
  induction tokens with
  | nil => rfl
  | cons t ts ih =>
    cases ts with
    | nil => simp [parBlocks, paraBlocks, spansBlocks, bare]
    | cons u us =>
      simp only [List.map_cons, parBlocks, paraBlocks] at ih ⊢
      rw [ih]
      simp [spansBlocks, bare]

theorem plain_map (ts : List (List Rune)) : Plain (ts.map (fun t => (⟨t, [], []⟩ : Piece))) := by
  induction ts with
  | nil => exact .nil
  | cons t ts ih => exact .cons t ih

theorem closePieces_nil (ps : List Piece) (h : ∀ p ∈ ps, p.stop = []) : closePieces [] ps = ps := by
  rcases List.eq_nil_or_concat ps with rfl | ⟨q, p, rfl⟩
  · rfl
  · rw [List.concat_eq_append, closePieces_concat]
    have := h p (by simp)
    cases p
    simp_all

theorem openPieces_nil (ts : List (List Rune)) : openPieces false [] ts = ts.map (fun t => (⟨t, [], []⟩ : Piece)) := by
  cases ts <;> simp [openPieces]

theorem parPieces_bare (sp : Splitter) (tokens : List (List Rune)) :
    parPieces sp (tokens.map bare) = (texts (paraBlocks sp tokens)).map (fun t => (⟨t, [], []⟩ : Piece)) := by
  have hb : ∀ t, spansPieces sp (bare t) = (texts (tokenBlocks sp t)).map (fun t => (⟨t, [], []⟩ : Piece)) := by
    intro t
    simp only [spansPieces, bare, spanPieces, List.flatMap_cons, List.flatMap_nil, List.append_nil]
    rw [closePieces_nil _ (openPieces_stop _ _ _), openPieces_nil]
  induction tokens with
  | nil => rfl
  | cons t ts ih =>
    have e : parPieces sp ((t :: ts).map bare) = spansPieces sp (bare t) ++ parPieces sp (ts.map bare) := rfl
    rw [e, hb, ih]
    cases ts with
    | nil => simp [paraBlocks, texts]
    | cons u us =>
      have : texts (paraBlocks sp (t :: u :: us)) = texts (tokenBlocks sp t) ++ texts (paraBlocks sp (u :: us)) := by
        simp [paraBlocks, texts_append]
        simp [texts, Block.text]
      rw [this]; simp

/-- The box of a text has the number of its renderer. -/
theorem tns_part (l : LineBreaker F) (m : Measure) (k : Nat) (bs : List Block) (x : TN F) (hx : x ∈ tns l m k bs)
    (t : List Rune) (ht : x.tag = some (.part t)) :
    ∃ i, (texts bs)[i]? = some t ∧ x = boxT l m (k + i) t := by
  induction bs generalizing k with
  | nil => simp [tns] at hx
  | cons b bs ih =>
    simp only [tns, List.mem_append] at hx
    rcases hx with hx | hx
    · have : ∃ b', b.text = [b'] ∧ x = boxT l m k t ∧ b' = t := by
        cases b with
        | box u =>
          simp only [Block.tn, List.mem_singleton] at hx
          subst hx
          simp [boxT] at ht
          exact ⟨u, rfl, by rw [ht], ht⟩
        | mark u =>
          simp only [Block.tn, markT, List.mem_cons, List.not_mem_nil, or_false] at hx
          rcases hx with rfl | rfl | rfl | rfl | rfl <;> simp [boxT] at ht
          exact ⟨u, rfl, by rw [ht], ht⟩
        | hard u =>
          simp only [Block.tn, markT, List.mem_cons, List.not_mem_nil, or_false] at hx
          rcases hx with rfl | rfl | rfl | rfl | rfl <;> simp [boxT] at ht
          exact ⟨u, rfl, by rw [ht], ht⟩
        | soft =>
          simp only [Block.tn, softT] at hx
          split at hx
          · simp only [List.mem_cons, List.not_mem_nil, or_false] at hx
            rcases hx with rfl | rfl | rfl | rfl <;> simp at ht
          · simp only [List.mem_singleton] at hx
            subst hx
            simp at ht
        | gap =>
          simp only [Block.tn, gapT, List.mem_cons, List.not_mem_nil, or_false] at hx
          rcases hx with rfl | rfl | rfl <;> simp at ht
      obtain ⟨b', h1, h2, rfl⟩ := this
      exact ⟨0, by simp [texts, h1], h2⟩
    · obtain ⟨i, h1, h2⟩ := ih (k + b.text.length) hx
      refine ⟨b.text.length + i, ?_, by rw [h2, Nat.add_assoc]⟩
      rw [show texts (b :: bs) = b.text ++ texts bs by simp [texts]]
      rw [List.getElem?_append_right (by omega)]
      simpa using h1

theorem parNodes_part (l : LineBreaker F) (m : Measure) (k : Nat) (bs : List Block) (x : TN F) (hx : x ∈ parNodes l m k bs)
    (t : List Rune) (ht : x.tag = some (.part t)) :
    ∃ i, (texts bs)[i]? = some t ∧ x = boxT l m (k + i) t := by
  simp only [parNodes, List.mem_append] at hx
  rcases hx with hx | hx
  · exact tns_part l m k bs x hx t ht
  · simp only [finT, List.mem_cons, List.not_mem_nil, or_false] at hx
    rcases hx with rfl | rfl <;> simp at ht

variable [Laws F]

/-- The text of lines without escape sequences. -/
theorem render_bare {l : LineBreaker F} {m : Measure} (hs : Setup l m) (sp : Splitter) (tokens : List (List Rune))
    (L : List Piece) (hL : Plain L) (g : List Rune) (segs : List (List (TN F))) (lines : List Line)
    (h : List.Forall₂ (LineOf l) segs lines)
    (hm : ∀ z ∈ segs.flatten, z ∈ parNodes l m L.length (parBlocks sp (tokens.map bare))) :
    renderSegs l (lv 0 (L ++ parPieces sp (tokens.map bare))) g segs
      (AState.iterator (lv 0 (L ++ parPieces sp (tokens.map bare)))) = lines.map (Line.text g) := by
  have hP : Plain (L ++ parPieces sp (tokens.map bare)) := by
    rw [parPieces_bare]; exact hL.append (plain_map _)
  have hT : Para l m (parNodes l m L.length (parBlocks sp (tokens.map bare))) :=
    para_parNodes hs L.length _ (noSoft_par sp _)
  refine renderSegs_plain _ hP segs lines h ?_ ?_ _ ⟨_, _, rfl⟩
  · intro x hx
    obtain ⟨a, b, hab⟩ := List.append_of_mem (hm x hx)
    constructor
    · intro hk
      obtain ⟨t, k, e, _⟩ := (hT.facts a x b hab).box hk
      exact ⟨t, by rw [e]; rfl⟩
    · rintro ⟨t, ht⟩
      by_contra hk
      exact (hT.facts a x b hab).nonbox hk t ht
  · intro x hx t ht
    obtain ⟨i, h1, h2⟩ := parNodes_part l m _ _ x (hm x hx) t ht
    subst h2
    rw [parPieces_bare]
    rw [parBlocks_bare] at h1
    simp only [renderBox, boxT, newBox]
    rw [lv_getElem?, List.getElem?_append_right (by omega), Nat.add_sub_cancel_left, List.getElem?_map, h1]
    simp [render_eq]

end Verif.Proofs.LB
