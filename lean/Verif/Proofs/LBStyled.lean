import Verif.Proofs.LBReady
import Verif.Proofs.AnsiChunk
import Verif.Spec.StyledCall

/-! # Styled paragraphs -/

set_option linter.unusedSectionVars false
set_option linter.unusedSimpArgs false

namespace Verif.Proofs.LB
open Verif.Go Verif.Model Verif.Model.LB Verif.Spec Verif.Spec.Ansi Verif.Spec.LB Verif.Props

/-! ## Symbols and pieces -/

theorem parts_append (a b : List Sym) : parts (a ++ b) = parts a ++ parts b := by
  induction a with
  | nil => rfl
  | cons s a ih => cases s <;> simp [parts, ih]

theorem parts_syms (bs : List Block) : parts (syms bs) = texts bs := by
  induction bs with
  | nil => rfl
  | cons b bs ih =>
    have e1 : syms (b :: bs) = b.syms ++ syms bs := rfl
    have e2 : texts (b :: bs) = b.text ++ texts bs := rfl
    rw [e1, e2, parts_append, ih]
    cases b <;> rfl

theorem parts_token (sp : Splitter) (t : List Rune) : parts (tokenSyms sp t) = texts (tokenBlocks sp t) := by
  rw [← syms_tokenBlocks, parts_syms]

theorem dressParts_nil (stop : List Rune) (ts : List (List Rune)) :
    dressParts [] stop ts = closePieces stop (ts.map (fun t => (⟨t, [], []⟩ : Piece))) := by
  induction ts with
  | nil => rfl
  | cons t ts ih =>
    cases ts with
    | nil => rfl
    | cons u us => simp only [dressParts, List.map_cons, closePieces] at ih ⊢; rw [ih]

theorem dressParts_eq (start stop : List Rune) (ts : List (List Rune)) :
    dressParts start stop ts = closePieces stop (openPieces false start ts) := by
  cases ts with
  | nil => rfl
  | cons t ts =>
    cases ts with
    | nil => rfl
    | cons u us =>
      simp only [dressParts, openPieces, Bool.false_eq_true, if_false, List.map_cons, closePieces]
      rw [dressParts_nil]
      rfl

theorem styledPieces_eq (sp : Splitter) (tks : List (List Span)) : styledPieces sp tks = parPieces sp tks := by
  unfold styledPieces parPieces spansPieces spanPieces
  congr 1; funext t
  congr 1; funext x
  rw [dressParts_eq, parts_token]

theorem styledSyms_eq (sp : Splitter) (tks : List (List Span)) : styledSyms sp tks = syms (parBlocks sp tks) := by
  have h1 : ∀ t, spansSyms sp t = syms (spansBlocks sp t) := by
    intro t
    unfold spansSyms spansBlocks
    rw [syms_flatMap]
    congr 1; funext x; rw [syms_tokenBlocks]
  induction tks with
  | nil => rfl
  | cons t tks ih =>
    cases tks with
    | nil => exact h1 t
    | cons u us =>
      simp only [styledSyms, parBlocks] at ih ⊢
      rw [syms_append, h1, ih]
      rfl

/-! ## Boxes are numbered -/

section
variable {F : Type} [Arith F]

/-- Boxes with numbers from `k` on. -/
def numbered (l : LineBreaker F) (m : Measure) : Nat → List (List Rune) → List (TN F)
  | _, [] => []
  | k, t :: rest => boxT l m k t :: numbered l m (k + 1) rest

theorem boxes_tns (l : LineBreaker F) (m : Measure) (k : Nat) (bs : List Block) :
    boxes (tns l m k bs) = numbered l m k (texts bs) := by
  induction bs generalizing k with
  | nil => rfl
  | cons b bs ih =>
    have e2 : texts (b :: bs) = b.text ++ texts bs := rfl
    rw [tns, boxes_append, ih, e2]
    cases b with
    | soft =>
      simp only [Block.tn, softT, Block.text]
      split <;> simp [boxes, newPenalty, newGlue]
    | _ => simp [Block.tn, Block.text, boxes, markT, gapT, boxT, newPenalty, newGlue, newBox, numbered]

theorem boxes_parNodes (l : LineBreaker F) (m : Measure) (k : Nat) (bs : List Block) :
    boxes (parNodes l m k bs) = numbered l m k (texts bs) := by
  rw [parNodes, boxes_append, boxes_tns]
  simp [boxes, finT, newPenalty, newGlue]

theorem numbered_length (l : LineBreaker F) (m : Measure) (k : Nat) (ts : List (List Rune)) :
    (numbered l m k ts).length = ts.length := by
  induction ts generalizing k with
  | nil => rfl
  | cons t ts ih => simp [numbered, ih]

theorem numbered_drop (l : LineBreaker F) (m : Measure) (k n : Nat) (ts : List (List Rune)) :
    (numbered l m k ts).drop n = numbered l m (k + n) (ts.drop n) := by
  induction n generalizing k ts with
  | zero => simp
  | succ n ih =>
    cases ts with
    | nil => simp [numbered]
    | cons t ts => simp only [numbered, List.drop_succ_cons]; rw [ih]; congr 1; omega

/-! ## The text of a line -/

/-- Boxes are the nodes that stand for parts of words. -/
def BoxTag (x : TN F) : Prop := x.node.kind = .box ↔ ∃ t, x.tag = some (.part t)

theorem boxTag_par (l : LineBreaker F) (m : Measure) (k : Nat) (bs : List Block) :
    ∀ x ∈ parNodes l m k bs, BoxTag x := by
  have h : ∀ x ∈ tns l m k bs, BoxTag x := by
    induction bs generalizing k with
    | nil => simp [tns]
    | cons b bs ih =>
      intro x hx
      rw [tns, List.mem_append] at hx
      rcases hx with hx | hx
      · cases b with
        | soft =>
          simp only [Block.tn, softT] at hx
          split at hx <;> simp at hx
          · rcases hx with rfl | rfl | rfl | rfl <;> simp [BoxTag, newPenalty, newGlue]
          · subst hx; simp [BoxTag, newPenalty]
        | box t => simp [Block.tn] at hx; subst hx; simp [BoxTag, boxT, newBox]
        | gap => simp [Block.tn, gapT] at hx; rcases hx with rfl | rfl | rfl | rfl <;> simp [BoxTag, newPenalty, newGlue]
        | mark t =>
          simp [Block.tn, markT] at hx
          rcases hx with rfl | rfl | rfl | rfl | rfl <;> simp [BoxTag, newPenalty, newGlue, boxT, newBox]
        | hard t =>
          simp [Block.tn, markT] at hx
          rcases hx with rfl | rfl | rfl | rfl | rfl <;> simp [BoxTag, newPenalty, newGlue, boxT, newBox]
      · exact ih _ x hx
  intro x hx
  rw [parNodes, List.mem_append] at hx
  rcases hx with hx | hx
  · exact h x hx
  · simp [finT] at hx
    rcases hx with rfl | rfl <;> simp [BoxTag, newPenalty, newGlue]

theorem layout_bodies {hy : Sym → List Rune} {P : Bool → List Sym → Option Sym → Prop} {first : Bool} {ss : List Sym}
    {ls : List Line} (h : Layout hy P false first ss ls) : ∀ x ∈ ls, StartsWithPart x.body := by
  induction h with
  | blankLine h => cases h
  | lastBlank h => cases h
  | blankAfter _ h => cases h
  | last p a b => simpa using a
  | brk p s x a b c d _ ih =>
    intro y hy
    rcases List.mem_cons.mp hy with rfl | hy
    · exact a
    · exact ih y hy

theorem boxes_parts {d : List (TN F)} (h : ∀ x ∈ d, BoxTag x) : (boxes d).length = (parts (symsT d)).length := by
  induction d with
  | nil => rfl
  | cons x d ih =>
    have ih' := ih (fun y hy => h y (by simp [hy]))
    have hx := h x (by simp)
    unfold BoxTag at hx
    rw [symsT_cons, parts_append]
    by_cases hk : x.node.kind = .box
    · obtain ⟨t, ht⟩ := hx.mp hk
      simp [boxes, hk, ht, parts] at ih' ⊢
      omega
    · have : parts x.tag.toList = [] := by
        cases ht : x.tag with
        | none => rfl
        | some s =>
          cases s with
          | part t => exact absurd (hx.mpr ⟨t, ht⟩) hk
          | _ => rfl
      simp [boxes, hk, this] at ih' ⊢
      exact ih'

theorem dress_eq {l : LineBreaker F} {m : Measure} (P : List Piece) (g : List Rune) (d B : List (TN F)) (k : Nat)
    (h : ∀ x ∈ d, BoxTag x) (hb : boxes d ++ B = numbered l m k ((P.drop k).map Piece.text)) :
    d.flatMap (tnText (lv 0 P) g) = dress g (symsT d) (P.drop k) := by
  induction d generalizing k with
  | nil => rfl
  | cons x d ih =>
    have ih' := fun k => ih k (fun y hy => h y (by simp [hy]))
    have hx := h x (by simp)
    unfold BoxTag at hx
    rw [List.flatMap_cons, symsT_cons]
    by_cases hk : x.node.kind = .box
    · have e1 : boxes (x :: d) = x :: boxes d := by simp [boxes, hk]
      rw [e1] at hb
      cases hp : P.drop k with
      | nil => rw [hp] at hb; simp [numbered] at hb
      | cons p ps =>
        have hps : ps = P.drop (k + 1) := by
          rw [← List.drop_drop, hp]; rfl
        have hget : P[k]? = some p := by
          have := congrArg List.head? hp
          simpa [List.head?_drop] using this
        rw [hp] at hb
        simp only [List.map_cons, numbered, List.cons_append, List.cons.injEq] at hb
        obtain ⟨rfl, hb⟩ := hb
        rw [hps] at hb ⊢
        rw [ih' (k + 1) hb]
        simp only [boxT, Option.toList, List.cons_append, List.nil_append, dress]
        congr 1
        simp only [tnText, renderBox, newBox]
        rw [lv_getElem?, hget]
        simp [render_eq]
    · have e1 : boxes (x :: d) = boxes d := by simp [boxes, hk]
      rw [e1] at hb
      rw [ih' k hb]
      unfold tnText
      cases ht : x.tag with
      | none => rfl
      | some s =>
        cases s with
        | part t => exact absurd (hx.mpr ⟨t, ht⟩) hk
        | _ => rfl

/-! ## Starts and ends of lines -/

theorem balanced_closed {l : List Piece} : Balanced l ↔ Closed l := by
  unfold Balanced Closed
  rw [dep_count]
  constructor
  · rintro ⟨h1, h2⟩; exact ⟨by omega, h1⟩
  · rintro ⟨h1, h2⟩; exact ⟨h2, by omega⟩

theorem clean_at {P : List Piece} {n : Nat} (h : Clean P (n + 1)) : At P n := by
  cases h with
  | out h => exact .out (balanced_closed.mp h)
  | inRun pre mid tail t start j h1 h2 h3 h4 h5 h6 h7 h8 =>
    have h5 := balanced_closed.mp h5
    refine .inRun pre mid tail t start j h1 (by omega) h3 h4 h5 ?_ h7 h8
    rcases h6 with h6 | ⟨q, t', rfl⟩
    · exact Or.inl h6
    · refine Or.inr ⟨q, t', rfl, ?_⟩
      obtain ⟨a, b⟩ := h5
      rw [dep_append] at a
      rw [openAfter_append] at b
      exact ⟨by simpa [dep] using a, by simpa [openAfter] using b⟩

theorem at_clean {P : List Piece} {n : Nat} (h : At P n) : Clean P (n + 1) := by
  cases h with
  | out h => exact .out (balanced_closed.mpr h)
  | inRun pre mid tail t start j h1 h2 h3 h4 h5 h6 h7 h8 =>
    refine .inRun pre mid tail t start j h1 (by omega) h3 h4 (balanced_closed.mpr h5) ?_ h7 h8
    rcases h6 with h6 | ⟨q, t', h6, _⟩
    · exact Or.inl h6
    · exact Or.inr ⟨q, t', h6⟩

theorem separated_clean {P : List Piece} (h : Separated P) (k : Nat) (h1 : 0 < k) (h2 : k ≤ P.length) : Clean P k := by
  obtain ⟨n, rfl⟩ : ∃ n, k = n + 1 := ⟨k - 1, by omega⟩
  exact at_clean (separated_at h n h2)

theorem resumed_first (p : Piece) (P : List Piece) (b : Bool) :
    AIter.startOfLine (lv 0 (p :: P)) ⟨b, some 0⟩ [] = resumed (p :: P) 1 := by
  obtain ⟨t, s, e⟩ := p
  simp only [lv, AIter.startOfLine, resumed, List.take_succ_cons, List.take_zero, openAfter, List.getElem?_cons_zero]
  cases s <;> cases e <;>
    simp [Attribute.hasStop, backtrackLoop, startLoop, Attribute.writeStart, Attribute.hasStart, emit]

theorem resumed_at {P : List Piece} (n : Nat) (hs : At P n) (b : Bool) (out : List Rune) :
    AIter.startOfLine (lv 0 P) ⟨b, some n⟩ out = out ++ resumed P (n + 1) := by
  unfold resumed
  cases hs with
  | out hc => rw [startOfLine_zero _ _ _ hc.1, hc.2]; simp
  | inRun pre mid tail t start j h1 h2 h3 h4 h5 h6 h7 h8 =>
    subst h1 h2
    rw [startOfLine_inRun b h3 h4 h5 h6 h7]
    congr 1
    rw [show pre.length + j + 1 = pre.length + (j + 1) by omega, List.take_length_add_append,
      List.take_succ_cons, List.take_append_of_le_length h3, openAfter_append, h5.2]
    simp [openAfter, h4, (h7.take j).openAfter]

theorem closed_at {P : List Piece} (n : Nat) (hs : At P n) (b : Bool) (out : List Rune) :
    AIter.endOfLine (lv 0 P) ⟨b, some n⟩ out = out ++ closed P (n + 1) := by
  unfold closed
  cases hs with
  | out hc => rw [endOfLine_zero _ _ _ hc.1, hc.2]; simp [closing_false]
  | inRun pre mid tail t start j h1 h2 h3 h4 h5 h6 h7 h8 =>
    subst h1 h2
    rw [endOfLine_inRun b h3 h4 h5 h6 h7 h8]
    congr 1
    rw [show pre.length + j + 1 = pre.length + (j + 1) by omega, List.take_length_add_append,
      List.take_succ_cons, List.take_append_of_le_length h3, openAfter_append, h5.2,
      List.drop_length_add_append, List.drop_succ_cons, List.drop_append_of_le_length h3,
      (h7.drop j).closing_append]
    simp [openAfter, h4, (h7.take j).openAfter]

/-- The lines of a styled paragraph. -/
theorem renderSegs_styled {l : LineBreaker F} {m : Measure} {g : List Rune} {P : List Piece}
    (segs : List (List (TN F))) (lines : List Line) (h : List.Forall₂ (LineOf l) segs lines)
    (hst : ∀ x ∈ lines, StartsWithPart x.body) (hn : ∀ x ∈ segs.flatten, BoxTag x) (k : Nat)
    (hb : boxes segs.flatten = numbered l m k ((P.drop k).map Piece.text))
    (hk : k = 0 ∨ Clean P k) (hs : ∀ c ∈ cuts k lines, Clean P c) :
    renderSegs l (lv 0 P) g segs (adv (lv 0 P) k (AState.iterator (lv 0 P))) = styledLines g P k lines := by
  induction h generalizing k with
  | nil => rfl
  | @cons seg line segs lines h1 h2 ih =>
    have hline := hst line (by simp)
    have hseg : ∀ x ∈ seg, BoxTag x := fun x hx => hn x (by rw [List.flatten_cons, List.mem_append]; exact Or.inl hx)
    have hrest : ∀ x ∈ segs.flatten, BoxTag x := fun x hx => hn x (by rw [List.flatten_cons, List.mem_append]; exact Or.inr hx)
    rcases h1 with ⟨_, e⟩ | ⟨d, x, e1, hx1, hx2, e2⟩
    · obtain ⟨t, r, e'⟩ := hline
      rw [e] at e'; cases e'
    · have hd : ∀ y ∈ d, BoxTag y := fun y hy => hseg y (by rw [e1]; simp [hy])
      have hbx : boxes seg = boxes d := by rw [e1, boxes_append]; simp [boxes, hx1]
      have hcnt : (boxes seg).length = (parts line.body).length := by rw [hbx, boxes_parts hd, e2]
      have hpos : 0 < (parts line.body).length := by
        obtain ⟨t, r, e'⟩ := hline
        rw [e']; simp [parts]
      rw [List.flatten_cons, boxes_append] at hb
      have hlen := congrArg List.length hb
      rw [List.length_append, numbered_length, List.length_map, List.length_drop, hcnt] at hlen
      have hbr : boxes segs.flatten =
          numbered l m (k + (parts line.body).length) ((P.drop (k + (parts line.body).length)).map Piece.text) := by
        have := congrArg (List.drop (boxes seg).length) hb
        rw [List.drop_left, numbered_drop, hcnt, ← List.map_drop, List.drop_drop] at this
        exact this
      rw [renderSegs, styledLines]
      rw [← adv_add, hcnt, ih (fun x hx => hst x (by simp [hx])) hrest _ hbr
        (Or.inr (hs _ (by simp [cuts]))) (fun c hc => hs c (by simp [cuts, hc]))]
      congr 1
      -- the end
      have hcl : Clean P (k + (parts line.body).length) := hs _ (by simp [cuts])
      obtain ⟨c, hc⟩ : ∃ c, k + (parts line.body).length = c + 1 := ⟨k + (parts line.body).length - 1, by omega⟩
      rw [hc] at hcl
      rw [hc, adv_iterator, lv_length, if_pos (by omega), closed_at c (clean_at hcl)]
      congr 1
      -- the start
      have hstart : (adv (lv 0 P) k (AState.iterator (lv 0 P))).startOfLine (lv 0 P) [] = resumed P (max k 1) := by
        cases k with
        | zero =>
          cases P with
          | nil => rw [List.length_nil] at hlen; omega
          | cons p P => exact resumed_first p P true
        | succ k =>
          rw [adv_iterator, lv_length, if_pos (by omega), resumed_at k (clean_at (by simpa using hk))]
          simp
      rw [hstart, List.append_assoc]
      congr 1
      -- the body
      unfold segOut
      rw [e1, List.flatMap_append, dress_eq P g d (boxes segs.flatten) k hd (by rw [← hbx]; exact hb)]
      have hxt : tnText (lv 0 P) g x = [] := by
        have hx := hseg x (by rw [e1]; simp)
        unfold BoxTag at hx
        unfold tnText
        cases htag : x.tag with
        | none => rfl
        | some s =>
          cases s with
          | part t => exact absurd (hx.mpr ⟨t, htag⟩) hx1
          | gap => exact absurd htag hx2
          | _ => rfl
      subst e2
      simp [hxt]

/-! ## Any styled text -/

theorem lv_starts (d : Int) (Q : List Piece) : (lv d Q).map Attribute.start = Q.map Piece.start := by
  induction Q generalizing d with
  | nil => rfl
  | cons p r ih => simp [lv, ih]

theorem lv_stops (d : Int) (Q : List Piece) : (lv d Q).map Attribute.stop = Q.map Piece.stop := by
  induction Q generalizing d with
  | nil => rfl
  | cons p r ih => simp [lv, ih]

theorem startOfLine_starts (Q : List Piece) (i : AIter) : ∃ a : List (List Rune), (∀ x ∈ a, x ∈ Q.map Piece.start) ∧
    i.startOfLine (lv 0 Q) [] = a.flatten := by
  obtain ⟨b, n⟩ := i
  cases n with
  | none => exact ⟨[], by simp, rfl⟩
  | some k =>
    cases h : (lv 0 Q)[k]? with
    | none => exact ⟨[], by simp, by simp [AIter.startOfLine, h]⟩
    | some a =>
      simp only [AIter.startOfLine, h]
      generalize (if a.hasStop = true then a.level - 1 else a.level) = L
      by_cases h0 : L = 0
      · exact ⟨[], by simp, by simp [h0]⟩
      · simp only [h0, if_false]
        refine ⟨_, ?_, by rw [startLoop_eq, List.nil_append]⟩
        intro x hx
        obtain ⟨y, hy, rfl⟩ := List.mem_map.mp hx
        rw [← lv_starts 0 Q]
        exact List.mem_map_of_mem (List.mem_of_mem_drop (List.mem_of_mem_take hy))

theorem stopLoop_stops (L : Int) (a : List Attribute) (out : List Rune) :
    ∃ w : List (List Rune), (∀ x ∈ w, x ∈ a.map Attribute.stop) ∧ stopLoop L a out = out ++ w.flatten := by
  induction a generalizing out with
  | nil => exact ⟨[], by simp, by simp [stopLoop]⟩
  | cons x r ih =>
    rw [stopLoop]
    split
    · exact ⟨[], by simp, by simp⟩
    · obtain ⟨w, hw, h⟩ := ih (x.writeStop out)
      refine ⟨x.stop :: w, ?_, by rw [h, writeStop_eq]; simp⟩
      intro y hy
      rcases List.mem_cons.mp hy with rfl | hy
      · simp
      · exact List.mem_cons_of_mem _ (hw y hy)

theorem endOfLine_stops (Q : List Piece) (i : AIter) (out : List Rune) :
    ∃ w : List (List Rune), (∀ x ∈ w, x ∈ Q.map Piece.stop) ∧ i.endOfLine (lv 0 Q) out = out ++ w.flatten := by
  obtain ⟨b, n⟩ := i
  cases n with
  | none => exact ⟨[], by simp, by simp [AIter.endOfLine]⟩
  | some k =>
    cases h : (lv 0 Q)[k]? with
    | none => exact ⟨[], by simp, by simp [AIter.endOfLine, h]⟩
    | some a =>
      simp only [AIter.endOfLine, h]
      generalize (if a.hasStop = true then a.level - 1 else a.level) = L
      by_cases h0 : L = 0
      · exact ⟨[], by simp, by simp [h0]⟩
      · simp only [h0, if_false]
        obtain ⟨w, hw, e⟩ := stopLoop_stops L ((lv 0 Q).drop (backtrackLoop (lv 0 Q) L k)) out
        refine ⟨w, ?_, e⟩
        intro x hx
        obtain ⟨y, hy, rfl⟩ := List.mem_map.mp (hw x hx)
        rw [← lv_stops 0 Q]
        exact List.mem_map_of_mem (List.mem_of_mem_drop hy)

/-- The lines of any styled paragraph, after any history. -/
theorem renderSegs_wrapped {l : LineBreaker F} {m : Measure} {g : List Rune} {H P : List Piece}
    (segs : List (List (TN F))) (lines : List Line) (h : List.Forall₂ (LineOf l) segs lines)
    (hst : ∀ x ∈ lines, StartsWithPart x.body) (hn : ∀ x ∈ segs.flatten, BoxTag x) (k : Nat) (it : AIter)
    (hb : boxes segs.flatten = numbered l m (H.length + k) ((P.drop k).map Piece.text)) :
    Wrapped g ((H ++ P).map Piece.start) ((H ++ P).map Piece.stop) P k lines
      (renderSegs l (lv 0 (H ++ P)) g segs it) := by
  induction h generalizing k it with
  | nil => exact .nil k
  | @cons seg line segs lines h1 h2 ih =>
    have hline := hst line (by simp)
    have hseg : ∀ x ∈ seg, BoxTag x := fun x hx => hn x (by rw [List.flatten_cons, List.mem_append]; exact Or.inl hx)
    have hrest : ∀ x ∈ segs.flatten, BoxTag x := fun x hx => hn x (by rw [List.flatten_cons, List.mem_append]; exact Or.inr hx)
    rcases h1 with ⟨_, e⟩ | ⟨d, x, e1, hx1, hx2, e2⟩
    · obtain ⟨t, r, e'⟩ := hline
      rw [e] at e'; cases e'
    · have hd : ∀ y ∈ d, BoxTag y := fun y hy => hseg y (by rw [e1]; simp [hy])
      have hbx : boxes seg = boxes d := by rw [e1, boxes_append]; simp [boxes, hx1]
      have hcnt : (boxes seg).length = (parts line.body).length := by rw [hbx, boxes_parts hd, e2]
      rw [List.flatten_cons, boxes_append] at hb
      have hbr : boxes segs.flatten =
          numbered l m (H.length + (k + (parts line.body).length)) ((P.drop (k + (parts line.body).length)).map Piece.text) := by
        have := congrArg (List.drop (boxes seg).length) hb
        rw [List.drop_left, numbered_drop, hcnt, ← List.map_drop, List.drop_drop, Nat.add_assoc] at this
        exact this
      rw [renderSegs]
      obtain ⟨a, ha, ea⟩ := startOfLine_starts (H ++ P) it
      obtain ⟨b, hb', eb⟩ := endOfLine_stops (H ++ P) (adv (lv 0 (H ++ P)) (boxes seg).length it)
        (a.flatten ++ segOut l (lv 0 (H ++ P)) g seg)
      have hdrop : (H ++ P).drop (H.length + k) = P.drop k := by
        rw [← List.drop_drop, List.drop_left]
      have e : a.flatten ++ segOut l (lv 0 (H ++ P)) g seg = a.flatten ++ dress g line.body (P.drop k) ++ line.ending := by
        rw [List.append_assoc]
        congr 1
        unfold segOut
        rw [e1, List.flatMap_append, dress_eq (H ++ P) g d (boxes segs.flatten) (H.length + k) hd (by rw [← hbx, hdrop]; exact hb),
          hdrop]
        have hxt : tnText (lv 0 (H ++ P)) g x = [] := by
          have hx := hseg x (by rw [e1]; simp)
          unfold BoxTag at hx
          unfold tnText
          cases htag : x.tag with
          | none => rfl
          | some s =>
            cases s with
            | part t => exact absurd (hx.mpr ⟨t, htag⟩) hx1
            | gap => exact absurd htag hx2
            | _ => rfl
        subst e2
        simp [hxt]
      rw [ea, eb, e]
      exact .cons a b ha hb' (ih (fun x hx => hst x (by simp [hx])) hrest _ _ hbr)

/-! ## The texts of pieces -/

theorem closePieces_text (stop : List Rune) (ps : List Piece) : (closePieces stop ps).map Piece.text = ps.map Piece.text := by
  rcases List.eq_nil_or_concat ps with rfl | ⟨q, p, rfl⟩
  · rfl
  · rw [List.concat_eq_append, closePieces_concat]; simp

theorem openPieces_text (b : Bool) (start : List Rune) (ts : List (List Rune)) :
    (openPieces b start ts).map Piece.text = ts := by
  cases ts with
  | nil => rfl
  | cons t ts => simp [openPieces, Function.comp_def]

theorem parPieces_text (sp : Splitter) (tks : List (List Span)) :
    (parPieces sp tks).map Piece.text = texts (parBlocks sp tks) := by
  have h1 : ∀ t, (spansPieces sp t).map Piece.text = texts (spansBlocks sp t) := by
    intro t
    induction t with
    | nil => rfl
    | cons x xs ih =>
      have e1 : spansPieces sp (x :: xs) = spanPieces sp x ++ spansPieces sp xs := rfl
      have e2 : spansBlocks sp (x :: xs) = tokenBlocks sp x.text ++ spansBlocks sp xs := rfl
      rw [e1, e2, List.map_append, texts_append, ih]
      congr 1
      unfold spanPieces
      rw [closePieces_text, openPieces_text]
  induction tks with
  | nil => rfl
  | cons t tks ih =>
    have e1 : parPieces sp (t :: tks) = spansPieces sp t ++ parPieces sp tks := rfl
    rw [e1, List.map_append, h1, ih]
    cases tks with
    | nil => simp [parBlocks, texts]
    | cons u us =>
      simp only [parBlocks, texts_append]
      congr 1

end

/-! ## Separated spans -/

theorem separated_plain {a l : List Piece} (ha : Plain a) (h : Separated l) : Separated (a ++ l) := by
  cases h with
  | plain h => exact .plain (ha.append h)
  | @unclosed a' b start t h1 h2 h3 => rw [← List.append_assoc]; exact .unclosed t h1 (ha.append h2) h3
  | run h1 h2 => rw [← List.append_assoc]; exact .run (ha.append h1) h2
  | @cons a' b l start stop t h1 h2 h3 =>
    have e : a ++ (a' ++ b ++ ⟨t, [], []⟩ :: l) = (a ++ a') ++ b ++ ⟨t, [], []⟩ :: l := by simp
    rw [e]
    exact .cons t (ha.append h1) h2 h3

/-- The parts of a piece. -/
def refine (f : List Rune → List (List Rune)) (p : Piece) : List Piece := dressParts p.start p.stop (f p.text)

section
variable {f : List Rune → List (List Rune)}

theorem refine_plain {a : List Piece} (ha : Plain a) : Plain (a.flatMap (refine f)) := by
  induction ha with
  | nil => exact .nil
  | @cons t l _ ih =>
    rw [List.flatMap_cons]
    refine Plain.append ?_ ih
    unfold refine
    rw [dressParts_nil, closePieces_nil _ (by simp)]
    exact plain_map _

theorem dressParts_open (start : List Rune) (ts : List (List Rune)) (hne : ts ≠ []) :
    ∃ t b, dressParts start [] ts = ⟨t, start, []⟩ :: b ∧ Plain b := by
  cases ts with
  | nil => exact absurd rfl hne
  | cons t ts =>
    cases ts with
    | nil => exact ⟨t, [], rfl, .nil⟩
    | cons u us =>
      refine ⟨t, dressParts [] [] (u :: us), rfl, ?_⟩
      rw [dressParts_nil, closePieces_nil _ (by simp)]
      exact plain_map _

theorem dressParts_close (stop : List Rune) (ts : List (List Rune)) (hne : ts ≠ []) :
    ∃ t b, dressParts [] stop ts = b ++ [⟨t, [], stop⟩] ∧ Plain b := by
  rcases List.eq_nil_or_concat ts with rfl | ⟨q, p, rfl⟩
  · exact absurd rfl hne
  · refine ⟨p, q.map (fun t => (⟨t, [], []⟩ : Piece)), ?_, plain_map q⟩
    rw [dressParts_nil, List.concat_eq_append, List.map_append]
    exact closePieces_concat _ _ _

theorem refine_run {b : List Piece} {start stop : List Rune} (hb : Run b start stop)
    (hf : ∀ p ∈ b, f p.text ≠ []) : Run (b.flatMap (refine f)) start stop := by
  cases hb with
  | single t h1 h2 =>
    have hne := hf _ (List.mem_singleton.mpr rfl)
    simp only [List.flatMap_cons, List.flatMap_nil, List.append_nil]
    unfold refine
    simp only at hne ⊢
    cases hft : f t with
    | nil => exact absurd hft hne
    | cons u us =>
      cases us with
      | nil => exact .single u h1 h2
      | cons v vs =>
        obtain ⟨t', b', e1, e2⟩ := dressParts_close stop (v :: vs) (by simp)
        simp only [dressParts]
        rw [e1]
        exact .many u t' h1 h2 e2
  | @many t t' _ _ l h1 h2 hp =>
    have hn1 := hf ⟨t, start, []⟩ (by simp)
    have hn2 := hf ⟨t', [], stop⟩ (by simp)
    obtain ⟨u, b1, e1, p1⟩ := dressParts_open start (f t) hn1
    obtain ⟨u', b2, e2, p2⟩ := dressParts_close stop (f t') hn2
    have e3 : refine f ⟨t, start, []⟩ = ⟨u, start, []⟩ :: b1 := e1
    have e4 : refine f ⟨t', [], stop⟩ = b2 ++ [⟨u', [], stop⟩] := e2
    rw [List.flatMap_cons, List.flatMap_append, List.flatMap_cons, List.flatMap_nil, e3, e4]
    have := Run.many u u' h1 h2 ((p1.append (refine_plain (f := f) hp)).append p2)
    simpa using this

/-- Dividing texts into parts keeps styled runs separated. -/
theorem refine_separated {l : List Piece} (h : Separated l) (hf : ∀ p ∈ l, f p.text ≠ []) :
    Separated (l.flatMap (refine f)) := by
  induction h with
  | plain h => exact .plain (refine_plain h)
  | @unclosed a b start t h1 h2 h3 =>
    obtain ⟨u, b1, e1, p1⟩ := dressParts_open start (f t) (hf ⟨t, start, []⟩ (by simp))
    have e2 : refine f ⟨t, start, []⟩ = ⟨u, start, []⟩ :: b1 := e1
    rw [List.flatMap_append, List.flatMap_cons, e2]
    exact .unclosed u h1 (refine_plain h2) (p1.append (refine_plain h3))
  | run h1 h2 =>
    rw [List.flatMap_append]
    exact .run (refine_plain h1) (refine_run h2 (fun p hp => hf p (by simp [hp])))
  | @cons a b l start stop t h1 h2 h3 ih =>
    have ih' := ih (fun p hp => hf p (by simp [hp]))
    obtain ⟨u, b1, e1, p1⟩ := dressParts_open [] (f t) (hf ⟨t, [], []⟩ (by simp))
    have e2 : refine f ⟨t, [], []⟩ = ⟨u, [], []⟩ :: b1 := e1
    rw [List.flatMap_append, List.flatMap_append, List.flatMap_cons, e2]
    exact .cons u (refine_plain h1) (refine_run h2 (fun p hp => hf p (by simp [hp]))) (separated_plain p1 ih')

end

theorem styledPieces_refine (sp : Splitter) (tks : List (List Span)) :
    styledPieces sp tks = (tks.flatten.map Span.piece).flatMap (refine (fun t => parts (tokenSyms sp t))) := by
  induction tks with
  | nil => rfl
  | cons t tks ih =>
    rw [List.flatten_cons, List.map_append, List.flatMap_append, ← ih, List.flatMap_map]
    rfl

theorem styled_separated {sp : Splitter} (hl : sp.Lossless) {tks : List (List Span)}
    (hne : ∀ x ∈ tks.flatten, x.text ≠ []) (h : Separated (tks.flatten.map Span.piece)) :
    Separated (styledPieces sp tks) := by
  rw [styledPieces_refine]
  refine refine_separated h ?_
  intro p hp
  obtain ⟨x, hx, rfl⟩ := List.mem_map.mp hp
  have h1 := (token_token hl x.text (hne x hx)).1
  obtain ⟨y, ys, e⟩ := List.exists_cons_of_ne_nil h1.ne
  obtain ⟨u, hu⟩ := h1.head y (by rw [e]; rfl)
  simp only [Span.piece]
  rw [e, hu]
  simp [parts]

/-! ## Tokens made of chunks -/

theorem strips_chunks (rt : Runtime) {env : Env} (hd : AsciiDigits env) (cs : List Chunk) (hne : cs ≠ [])
    (hg : ∀ c ∈ cs, c.Good env) (ha : Apart cs) (hl : ((cs.flatMap Chunk.runes).length : Int) < 2 ^ 63) :
    Strips rt env (cs.flatMap Chunk.runes) (cs.map chunkSpan) := by
  generalize ht : cs.flatMap Chunk.runes = t at hl
  have he : (⟨0, t.length⟩ : View).elems (t ++ rt.spare t) = t := by simp [View.elems]
  have hv : (⟨0, t.length⟩ : View).Valid (t ++ rt.spare t) := by simp [View.Valid]
  have hm : MadeOf env Ansi.AnySeq ((⟨0, t.length⟩ : View).elems (t ++ rt.spare t)) := by
    rw [he, ← ht]; exact Ansi.madeOf_chunks hg
  rcases Ansi.stripToken_spec env hd (t ++ rt.spare t) ⟨0, t.length⟩ hv hl with ⟨_, _, h1⟩ | ⟨toks, h1, h2⟩
  · exact absurd (Ansi.overruns_cutShort hd h1) (Ansi.cutShort_madeOf hd hm)
  · refine ⟨toks, _, h2, ?_⟩
    have hnt : t ≠ [] := by
      rw [← ht]
      cases cs with
      | nil => exact absurd rfl hne
      | cons c cs => simp [Chunk.runes, (hg c (by simp)).full]
    have h3 := Ansi.runOf_chunks hd cs toks hg ha (mem := t ++ rt.spare t) (by
      rw [ht]
      exact Or.inr ⟨hnt, ⟨0, t.length⟩, he, hv, h1⟩)
    have h4 : ∀ tok, spanOf (t ++ rt.spare t) tok = (fun p : List Rune × List Rune × List Rune => (⟨p.1, p.2.1, p.2.2⟩ : Span))
        (Ansi.tokParts (t ++ rt.spare t) tok) := by
      intro tok
      obtain ⟨x, a, b, r⟩ := tok
      cases x <;> cases a <;> cases b <;> rfl
    have h5 := congrArg (List.map (fun p : List Rune × List Rune × List Rune => (⟨p.1, p.2.1, p.2.2⟩ : Span))) h3
    rw [List.map_map, List.map_map] at h5
    rw [show toks.map (spanOf (t ++ rt.spare t)) = _ from List.map_congr_left (fun tok _ => h4 tok)]
    exact h5

theorem strips_words (rt : Runtime) {env : Env} (hd : AsciiDigits env) (words : List (List Chunk))
    (h : ∀ cs ∈ words, ChunkWord env cs) :
    List.Forall₂ (Strips rt env) (words.map chunkWord) (spansOf words) := by
  induction words with
  | nil => exact .nil
  | cons cs words ih =>
    have hc := h cs (by simp)
    exact .cons (strips_chunks rt hd cs hc.some hc.good hc.apart hc.short) (ih (fun c hm => h c (by simp [hm])))

/-! ## Calls -/

section
variable {F : Type} [Arith F]

/-- A used line breaker differs from a new one by its list of attributes. -/
structure Keeps (env : Env) (dict : Dictionary) (opts : List (Opt F)) (l : LineBreaker F) (H : List Piece) : Prop where
  same : l = { (new env dict opts : LineBreaker F) with attrList := l.attrList }
  list : l.attrList = lv 0 H

variable [Laws F] {rt : Runtime} {env : Env} {dict : Dictionary} {opts : List (Opt F)} {text : List Rune → Int} {n : Nat}
  {l l' : LineBreaker F} {H : List Piece} {words : List (List Chunk)} {maxWidth : F} {W : Int}
  {lines : List (List Rune)}

theorem Keeps.lift (hk : Keeps env dict opts l H) {P : LineBreaker F → Prop}
    (hP : ∀ l a, P l → P { l with attrList := a }) (h : P (new env dict opts)) : P l := by
  rw [hk.same]; exact hP _ _ h

theorem Keeps.splits (hk : Keeps env dict opts l H) (hs : Sane (defaultOptions opts) text n) :
    Splits env l (splitterOf env dict (defaultOptions opts)) :=
  hk.lift (P := fun l => Splits env l (splitterOf env dict (defaultOptions opts)))
    (fun _ _ h => ⟨h.marks, h.isMark, h.hyphens, h.isHyphen, h.syllables, h.parts, h.breakWords, h.short⟩) (splits_new hs)

theorem Keeps.setup (hk : Keeps env dict opts l H) (hs : Sane (defaultOptions opts) text n) :
    Setup l (measureOf (defaultOptions opts) text) :=
  hk.lift (P := fun l => Setup l (measureOf (defaultOptions opts) text))
    (fun _ _ h => ⟨h.stretch, h.text, h.text_nonneg, h.space, h.space_nonneg, h.hyphen, h.hyphen_nonneg, h.addHyphens,
      h.punct, h.hard, h.finite, h.minus⟩) (setup_new hs)

theorem Keeps.options (hk : Keeps env dict opts l H) : l.toOptions = (new env dict opts).toOptions :=
  hk.lift (P := fun l => l.toOptions = (new env dict opts).toOptions) (fun _ _ h => h) rfl

theorem keeps_used (hs : Sane (defaultOptions opts) text n) (hd : AsciiDigits env)
    (h : StyledUsed env dict opts l H) : Keeps env dict opts l H := by
  induction h with
  | new => exact ⟨rfl, rfl⟩
  | @call l l' hist rt words maxWidth r _ ht hr ih =>
    obtain ⟨nodes, attrs, h1, rfl⟩ := align_kept hr
    refine ⟨?_, ?_⟩
    · have := ih.same
      show ({ l with attrList := attrs } : LineBreaker F) = _
      rw [this]
    · cases words with
      | nil =>
        unfold leftAlignedNodes tokensLoop at h1
        cases h1
        simpa [styledPieces, spansOf] using ih.list
      | cons w ws =>
        rw [leftAlignedNodes_eq (ih.splits hs) (measureOf (defaultOptions opts) text) _ _ (strips_words rt hd _ ht)
          (by simp) hist ih.list] at h1
        cases h1
        rw [styledPieces_eq]

theorem parBlocks_texts (sp : Splitter) (tks tks' : List (List Span))
    (h : tks'.map (fun t => t.map Span.text) = tks.map (fun t => t.map Span.text)) :
    parBlocks sp tks' = parBlocks sp tks := by
  have h1 : ∀ t t' : List Span, t'.map Span.text = t.map Span.text → spansBlocks sp t' = spansBlocks sp t := by
    intro t t' e
    have h2 : ∀ t : List Span, spansBlocks sp t = (t.map Span.text).flatMap (tokenBlocks sp) := by
      intro t; rw [List.flatMap_map]; rfl
    rw [h2, h2, e]
  induction tks generalizing tks' with
  | nil => simp at h; subst h; rfl
  | cons t tks ih =>
    cases tks' with
    | nil => simp at h
    | cons t' tks' =>
      simp only [List.map_cons, List.cons.injEq] at h
      have e1 := h1 t t' h.1
      cases tks with
      | nil =>
        have : tks' = [] := by simpa using h.2
        subst this
        simpa [parBlocks] using e1
      | cons u us =>
        cases tks' with
        | nil => simp at h
        | cons u' us' =>
          have e2 := ih (u' :: us') h.2
          simp only [parBlocks]
          rw [e1, e2]

/-- **Styled paragraphs.** -/
theorem styled_exact (c : StyledCall rt env dict opts text n l H words maxWidth W) (hpos : 0 < W) (hne : words ≠ []) :
    let sp := splitterOf env dict (defaultOptions opts)
    let m := measureOf (defaultOptions opts) text
    (¬ Settable m W (okRatio (defaultOptions opts)) (styledSyms sp (spansOf words)) ∧
      ∀ words' : List (List Chunk), (∀ cs ∈ words', ChunkWord env cs) → chunkTexts words' = chunkTexts words →
        ∃ l', leftAlignUniform rt env l (words'.map chunkWord) maxWidth = .ok (none, l')) ∨
    (Settable m W (okRatio (defaultOptions opts)) (styledSyms sp (spansOf words)) ∧
      ∃ ls, Layout (hyOf (new env dict opts)) (Acceptable m W (okRatio (defaultOptions opts))) false true
          (styledSyms sp (spansOf words)) ls ∧
        ∀ words' : List (List Chunk), (∀ cs ∈ words', ChunkWord env cs) → chunkTexts words' = chunkTexts words →
          let P := styledPieces sp (spansOf words')
          ∃ lines l', leftAlignUniform rt env l (words'.map chunkWord) maxWidth = .ok (some lines, l') ∧
          Wrapped (List.replicate n 0x20) ((H ++ P).map Piece.start) ((H ++ P).map Piece.stop) P 0 ls lines ∧
          (H = [] → (∀ k ∈ cuts 0 ls, Clean P k) → lines = styledLines (List.replicate n 0x20) P 0 ls)) := by
  intro sp m
  have hk := keeps_used c.sane c.digits c.used
  have ho := hk.options
  have hu : Usual l.toOptions := ho ▸ usual_new c.sane
  have hhy : hyOf l = hyOf (new env dict opts) := by
    funext s; cases s <;> simp [hyOf, penOf, ho]
  have hok : okRatio l.toOptions = okRatio (defaultOptions opts) := by rw [ho]; rfl
  have hsy : syms (parBlocks sp (spansOf words)) = styledSyms sp (spansOf words) := (styledSyms_eq _ _).symm
  have hstart : StartsWithPart (styledSyms sp (spansOf words)) := by
    obtain ⟨cs, ws, rfl⟩ := List.exists_cons_of_ne_nil hne
    obtain ⟨c0, cs, rfl⟩ := List.exists_cons_of_ne_nil (c.made cs (by simp)).some
    have hg := (c.made (c0 :: cs) (by simp)).good c0 (by simp)
    have h := (token_token (lossless (env := env) (dict := dict) c.sane) c0.text hg.full).1
    obtain ⟨x, xs, e⟩ := List.exists_cons_of_ne_nil h.ne
    obtain ⟨u, hu⟩ := h.head x (by rw [e]; rfl)
    have e2 : spansSyms sp ((c0 :: cs).map chunkSpan) = .part u :: (xs ++ spansSyms sp (cs.map chunkSpan)) := by
      show tokenSyms sp c0.text ++ _ = _
      rw [e, hu]; rfl
    cases ws with
    | nil => exact ⟨u, _, e2⟩
    | cons v vs => exact ⟨u, _, by show spansSyms sp _ ++ _ = _; rw [e2]; rfl⟩
  have hpb : ∀ words' : List (List Chunk), chunkTexts words' = chunkTexts words →
      parBlocks sp (spansOf words') = parBlocks sp (spansOf words) := by
    intro words' e
    refine parBlocks_texts sp _ _ ?_
    have h1 : ∀ ws : List (List Chunk), (spansOf ws).map (fun t => t.map Span.text) = chunkTexts ws := by
      intro ws; simp [chunkTexts, spansOf, chunkSpan, Function.comp_def]
    rw [h1, h1, e]
  have hne' : ∀ words' : List (List Chunk), chunkTexts words' = chunkTexts words →
      words'.map chunkWord ≠ [] := by
    intro words' e h
    apply hne
    have h' : words' = [] := by simpa using h
    subst h'
    simpa [chunkTexts] using e.symm
  have := align_exact_all (rt := rt) c.walks (hk.splits c.sane) (hk.setup c.sane) _ _ (strips_words rt c.digits words c.made)
    (by simpa using hne) H hk.list
    maxWidth W (by rw [ho]; exact c.scaled) hpos (List.replicate n 0x20) (by rw [ho]; exact pads_new c.sane) hu.tol
    (hu.tame (hk.setup c.sane)) (by rw [hsy]; exact hstart) (by rw [hsy]; exact c.exact)
  rw [hsy, hok] at this
  rcases this with ⟨h1, h2⟩ | ⟨h1, segs, ls, h2, h3, h4, h5, h6, h7⟩
  · exact Or.inl ⟨h1, fun words' a b => ⟨_, h2 _ _ (strips_words rt c.digits words' a) (hne' words' b) (hpb words' b)⟩⟩
  · have hbt : ∀ x ∈ segs.flatten, BoxTag x := fun x hx => boxTag_par _ _ _ _ x (h5 x hx)
    have hst : ∀ x ∈ ls, StartsWithPart x.body := layout_bodies h2
    refine Or.inr ⟨h1, ls, hhy ▸ h2, fun words' a b => ?_⟩
    intro P
    have hP : parPieces sp (spansOf words') = P := (styledPieces_eq _ _).symm
    have h6' := h6 _ _ (strips_words rt c.digits words' a) (hne' words' b) (hpb words' b)
    rw [hP] at h6'
    have hbx : boxes segs.flatten = numbered l m H.length (P.map Piece.text) := by
      rw [h4, boxes_parNodes, ← hP, parPieces_text, hpb words' b]
    refine ⟨_, _, h6', ?_, ?_⟩
    · exact renderSegs_wrapped segs ls h3 hst hbt 0 _ (by simpa using hbx)
    · rintro rfl hc
      exact renderSegs_styled segs ls h3 hst hbt 0 (by simpa using hbx) (Or.inl rfl) hc

end

end Verif.Proofs.LB
