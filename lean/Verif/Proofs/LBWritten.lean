import Verif.Spec.Written
import Verif.Proofs.Levels
import Verif.Proofs.LBAny

/-! # The sequences written around lines -/

set_option linter.unusedSectionVars false

namespace Verif.Proofs.LB
open Verif.Go Verif.Model Verif.Model.LB Verif.Spec Verif.Spec.Ansi Verif.Spec.LB

section
variable {F : Type} [Arith F] [Laws F] {rt : Runtime} {env : Env} {dict : Dictionary} {opts : List (Opt F)}
  {text : List Rune → Int} {n : Nat} {l l' : LineBreaker F} {H : List Piece} {seqs : List (List Rune)}
  {tokens : List (List Rune)} {tks : List (List Span)} {maxWidth : F} {W : Int} {lines : List (List Rune)}

theorem opening_of (all : List Piece) (n : Nat) (hn : n < all.length) (f : Bool) :
    ∃ a, Opening all n a ∧ AIter.startOfLine (lv 0 all) ⟨f, some n⟩ [] = a := by
  obtain ⟨b, e, hg, h1, _⟩ := line_spec all n hn f
  refine ⟨_, ⟨b, e, hg, rfl⟩, ?_⟩
  rw [h1, startsOf_flatten, List.nil_append]

theorem ending_of (all : List Piece) (n : Nat) (hn : n < all.length) (f : Bool) (out : List Rune) :
    ∃ a, Ending all n a ∧ AIter.endOfLine (lv 0 all) ⟨f, some n⟩ out = out ++ a := by
  obtain ⟨b, e, hg, _, h1⟩ := line_spec all n hn f
  refine ⟨_, ⟨b, e, hg, rfl⟩, ?_⟩
  rw [h1, stopsOf_flatten]
  split <;> simp

theorem opening_unique {all : List Piece} {n : Nat} {a a' : List Rune} (h : Opening all n a) (h' : Opening all n a') :
    a = a' := by
  obtain ⟨b, e, hg, rfl⟩ := h
  obtain ⟨b', e', hg', rfl⟩ := h'
  obtain ⟨rfl, rfl⟩ := group_unique hg hg'
  rfl

theorem ending_unique {all : List Piece} {n : Nat} {a a' : List Rune} (h : Ending all n a) (h' : Ending all n a') :
    a = a' := by
  obtain ⟨b, e, hg, rfl⟩ := h
  obtain ⟨b', e', hg', rfl⟩ := h'
  obtain ⟨rfl, rfl⟩ := group_unique hg hg'
  rfl

theorem written_unique {g : List Rune} {all P : List Piece} {k : Nat} {ls : List Line} {out out' : List (List Rune)}
    (h : Written g all P k ls out) (h' : Written g all P k ls out') : out = out' := by
  induction h generalizing out' with
  | nil k => cases h'; rfl
  | cons a b ha hb _ ih =>
    cases h' with
    | cons a' b' ha' hb' hr' =>
      rw [opening_unique ha ha', ending_unique hb hb', ih hr']

/-- The lines of any styled paragraph, after any history, exactly. -/
theorem renderSegs_written {l : LineBreaker F} {m : Measure} {g : List Rune} {H P : List Piece}
    (segs : List (List (TN F))) (lines : List Line) (h : List.Forall₂ (LineOf l) segs lines)
    (hst : ∀ x ∈ lines, StartsWithPart x.body) (hn : ∀ x ∈ segs.flatten, BoxTag x) (k : Nat)
    (hb : boxes segs.flatten = numbered l m (H.length + k) ((P.drop k).map Piece.text)) :
    Written g (H ++ P) P k lines
      (renderSegs l (lv 0 (H ++ P)) g segs (adv (lv 0 (H ++ P)) k (AState.iterator (lv 0 (H ++ P))))) := by
  induction h generalizing k with
  | nil => exact .nil k
  | @cons seg line segs lines h1 h2 ih =>
    have hline := hst line (by simp)
    have hseg : ∀ x ∈ seg, BoxTag x := fun x hx => hn x (by rw [List.flatten_cons, List.mem_append]; exact Or.inl hx)
    have hrest : ∀ x ∈ segs.flatten, BoxTag x := fun x hx => hn x (by rw [List.flatten_cons, List.mem_append]; exact Or.inr hx)
    rcases h1 with ⟨_, e⟩ | ⟨d, x, e1, hx1, hx2, e2⟩
    · obtain ⟨t, r, e'⟩ := hline
      rw [e] at e'; cases e'
    · have hd : ∀ y ∈ d, BoxTag y := fun y hy => hseg y (by rw [e1]; simp [hy])
      have hbx : boxes seg = boxes d := by rw [e1, boxes_append]; simp [boxes, hx1]
      have hcnt : (boxes seg).length = (parts line.body).length := by rw [hbx, boxes_parts hd, e2]
      have hpos : 0 < (parts line.body).length := by
        obtain ⟨t, r, e'⟩ := hline
        rw [e']; simp [parts]
      rw [List.flatten_cons, boxes_append] at hb
      have hlen := congrArg List.length hb
      rw [List.length_append, numbered_length, List.length_map, List.length_drop, hcnt] at hlen
      have hbr : boxes segs.flatten =
          numbered l m (H.length + (k + (parts line.body).length)) ((P.drop (k + (parts line.body).length)).map Piece.text) := by
        have := congrArg (List.drop (boxes seg).length) hb
        rw [List.drop_left, numbered_drop, hcnt, ← List.map_drop, List.drop_drop, Nat.add_assoc] at this
        exact this
      have hall : (H ++ P).length = H.length + P.length := by simp
      rw [renderSegs, ← adv_add, hcnt]
      have hdrop : (H ++ P).drop (H.length + k) = P.drop k := by
        rw [← List.drop_drop, List.drop_left]
      -- the start
      obtain ⟨a, ha, ea⟩ : ∃ a, Opening (H ++ P) (k - 1) a ∧
          (adv (lv 0 (H ++ P)) k (AState.iterator (lv 0 (H ++ P)))).startOfLine (lv 0 (H ++ P)) [] = a := by
        cases k with
        | zero =>
          have : adv (lv 0 (H ++ P)) 0 (AState.iterator (lv 0 (H ++ P))) = ⟨true, some 0⟩ := by
            have hl : 0 < (lv 0 (H ++ P)).length := by rw [lv_length]; omega
            obtain ⟨y, ys, e⟩ := List.exists_cons_of_length_pos hl
            rw [e]; rfl
          rw [this]
          exact opening_of _ _ (by omega) _
        | succ k =>
          rw [adv_iterator, lv_length, if_pos (by omega)]
          exact opening_of _ _ (by omega) _
      -- the end
      obtain ⟨c, hc⟩ : ∃ c, k + (parts line.body).length = c + 1 := ⟨k + (parts line.body).length - 1, by omega⟩
      obtain ⟨b, hb', eb⟩ := ending_of (H ++ P) c (by omega) false (a ++ segOut l (lv 0 (H ++ P)) g seg)
      have e : a ++ segOut l (lv 0 (H ++ P)) g seg = a ++ dress g line.body (P.drop k) ++ line.ending := by
        rw [List.append_assoc]
        congr 1
        unfold segOut
        rw [e1, List.flatMap_append, dress_eq (H ++ P) g d (boxes segs.flatten) (H.length + k) hd (by rw [← hbx, hdrop]; exact hb),
          hdrop]
        have hxt : tnText (lv 0 (H ++ P)) g x = [] := by
          have hx := hseg x (by rw [e1]; simp)
          unfold BoxTag at hx
          unfold tnText
          cases htag : x.tag with
          | none => rfl
          | some s =>
            cases s with
            | part t => exact absurd (hx.mpr ⟨t, htag⟩) hx1
            | gap => exact absurd htag hx2
            | _ => rfl
        subst e2
        simp [hxt]
      have hw := Written.cons (g := g) (all := H ++ P) (P := P) (k := k) (line := line) (rest := lines) a b ha
        (by rw [hc]; exact hb') (ih (fun x hx => hst x (by simp [hx])) hrest _ hbr)
      have hit : adv (lv 0 (H ++ P)) (c + 1) (AState.iterator (lv 0 (H ++ P))) = ⟨false, some c⟩ := by
        rw [adv_iterator, lv_length, if_pos (by omega)]
      rw [hc] at hw ⊢
      rw [hit] at hw ⊢
      rw [ea, eb, e]
      exact hw

theorem hist_keeps (hs : Sane (defaultOptions opts) text n) (h : AnyHist env dict opts l H) : Keeps env dict opts l H := by
  induction h with
  | new => exact ⟨rfl, rfl⟩
  | @call l l' H rt tokens tks maxWidth r _ hf hr hk =>
    obtain ⟨nodes, attrs, h1, rfl⟩ := align_kept hr
    refine ⟨?_, ?_⟩
    · have := hk.same
      show ({ l with attrList := attrs } : LineBreaker F) = _
      rw [this]
    · cases hf with
      | nil =>
        unfold leftAlignedNodes tokensLoop at h1
        cases h1
        simpa [styledPieces] using hk.list
      | @cons w xs ws xss hw hws =>
        rw [leftAlignedNodes_eq (hk.splits hs) (measureOf (defaultOptions opts) text) _ _
          (found_all (List.Forall₂.cons hw hws)) (by simp) H hk.list] at h1
        cases h1
        rw [styledPieces_eq]

theorem hist_used (h : AnyHist env dict opts l H) : ∃ seqs, AnyUsed env dict opts l seqs := by
  induction h with
  | new => exact ⟨[], .new⟩
  | call rt tokens tks maxWidth r _ hf hr ih =>
    obtain ⟨seqs, ih⟩ := ih
    exact ⟨_, .call rt tokens tks maxWidth r ih hf hr⟩

theorem used_hist {seqs : List (List Rune)} (h : AnyUsed env dict opts l seqs) : ∃ H, AnyHist env dict opts l H := by
  induction h with
  | new => exact ⟨[], .new⟩
  | call rt tokens tks maxWidth r _ hf hr ih =>
    obtain ⟨H, ih⟩ := ih
    exact ⟨_, .call rt tokens tks maxWidth r ih hf hr⟩

/-- **Paragraphs of any words, after any history.** -/
theorem any_written (c : AnyCall rt env dict opts text n l seqs tokens tks maxWidth W) (hh : AnyHist env dict opts l H)
    (hpos : 0 < W) (hr : leftAlignUniform rt env l tokens maxWidth = .ok (some lines, l')) :
    let sp := splitterOf env dict (defaultOptions opts)
    ∃ ls, Layout (hyOf (new env dict opts)) (Acceptable (measureOf (defaultOptions opts) text) W (okRatio (defaultOptions opts)))
        false true (styledSyms sp tks) ls ∧
      Written (List.replicate n 0x20) (H ++ styledPieces sp tks) (styledPieces sp tks) 0 ls lines := by
  intro sp
  have hk := hist_keeps c.sane hh
  have ho := hk.options
  have hu : Usual l.toOptions := ho ▸ usual_new c.sane
  have hhy : hyOf l = hyOf (new env dict opts) := by
    funext s; cases s <;> simp [hyOf, penOf, ho]
  have hok : okRatio l.toOptions = okRatio (defaultOptions opts) := by rw [ho]; rfl
  have hsy : syms (parBlocks sp tks) = styledSyms sp tks := (styledSyms_eq _ _).symm
  have hne : tokens ≠ [] := by
    rintro rfl
    obtain ⟨xs, h1, _⟩ := c.first
    have := c.found
    cases this
    cases h1
  have := align_exact_all (rt := rt) c.walks (hk.splits c.sane) (hk.setup c.sane) _ _ (found_all c.found) hne H hk.list
    maxWidth W (by rw [ho]; exact c.scaled) hpos (List.replicate n 0x20) (by rw [ho]; exact pads_new c.sane) hu.tol
    (hu.tame (hk.setup c.sane)) (by rw [hsy]; exact any_starts c) (by rw [hsy]; exact c.exact)
  rw [hsy, hok] at this
  rcases this with ⟨h1, h2⟩ | ⟨h1, segs, ls, h2, h3, h4, h5, h6, h7⟩
  · rw [h2 _ _ (found_all c.found) hne rfl] at hr; cases hr
  · have hbt : ∀ x ∈ segs.flatten, BoxTag x := fun x hx => boxTag_par _ _ _ _ x (h5 x hx)
    have hst : ∀ x ∈ ls, StartsWithPart x.body := layout_bodies h2
    have hP : parPieces sp tks = styledPieces sp tks := (styledPieces_eq _ _).symm
    have h6' := h6 _ _ (found_all c.found) hne rfl
    rw [hP] at h6'
    have hbx : boxes segs.flatten = numbered l (measureOf (defaultOptions opts) text) H.length ((styledPieces sp tks).map Piece.text) := by
      rw [h4, boxes_parNodes, ← hP, parPieces_text]
    have hw := renderSegs_written segs ls h3 hst hbt 0 (by simpa using hbx) (H := H) (g := List.replicate n 0x20)
    rw [h6'] at hr
    cases hr
    exact ⟨ls, hhy ▸ h2, hw⟩

/-! ## After a history without sequences -/

theorem depth_plain {H P : List Piece} (hp : Plain H) {n : Nat} (hn : n < H.length) : depthAfter (H ++ P) n = 0 := by
  unfold depthAfter
  rw [List.take_append_of_le_length (by omega)]
  obtain ⟨h1, h2, _⟩ := plain_none (hp.take (n + 1))
  rw [h1, h2]; rfl

theorem written_plain {g : List Rune} {H P : List Piece} (hp : Plain H) {k : Nat} {ls : List Line} {out : List (List Rune)}
    (h : Written g (H ++ P) P k ls out) (hst : ∀ x ∈ ls, StartsWithPart x.body)
    (hl : k + (ls.flatMap (fun x => parts x.body)).length ≤ H.length) : out = bareLines g P k ls := by
  induction h with
  | nil k => rfl
  | @cons k line rest out a b ha hb _ ih =>
    rw [List.flatMap_cons, List.length_append] at hl
    obtain ⟨t, r, e⟩ := hst line (by simp)
    have hpos : 0 < (parts line.body).length := by rw [e]; simp [parts]
    obtain ⟨_, _, _, rfl⟩ := ha
    obtain ⟨_, _, _, rfl⟩ := hb
    rw [if_pos (depth_plain hp (by omega)), if_pos (depth_plain hp (by omega)),
      ih (fun x hx => hst x (by simp [hx])) (by omega)]
    simp [bareLines]

end

end Verif.Proofs.LB
