import Verif.Proofs.LBTwo

/-! # The penalty of hyphens -/

set_option linter.unusedSectionVars false

namespace Verif.Proofs.LB
open Verif.Go Verif.Model Verif.Model.LB Verif.Spec Verif.Spec.LB

variable {F : Type} [Arith F]

/-- Two nodes that differ by their penalties only, which have the same meaning. -/
structure SimN (o o' : Options F) (a b : Node F) : Prop where
  kind : a.kind = b.kind
  sums : a.sums = b.sums
  value : a.value = b.value
  attr : a.attr = b.attr
  inf : Arith.eq a.penalty infinity = Arith.eq b.penalty infinity
  minus : Arith.eq a.penalty minusInfinity = Arith.eq b.penalty minusInfinity
  hyphen : a.kind = .penalty → o.renderHyphens = true →
    Arith.eq a.penalty o.hyphenPenalty = Arith.eq b.penalty o'.hyphenPenalty

theorem SimN.forced {o o' : Options F} {a b : Node F} (h : SimN o o' a b) : a.isForcedBreak = b.isForcedBreak := by
  unfold Node.isForcedBreak
  rw [h.kind, h.minus]

theorem SimN.same {o o' : Options F} {a : Node F}
    (h : a.kind = .penalty → o.renderHyphens = true → Arith.eq a.penalty o.hyphenPenalty = Arith.eq a.penalty o'.hyphenPenalty) :
    SimN o o' a a := ⟨rfl, rfl, rfl, rfl, rfl, rfl, h⟩

section
variable {o o' : Options F}

theorem sim_find {N N' : List (Node F)} (h : List.Forall₂ (SimN o o') N N') (i : Nat) : findStartNode N i = findStartNode N' i := by
  induction h generalizing i with
  | nil => rfl
  | cons h1 _ ih =>
    unfold findStartNode
    rw [h1.kind, h1.minus]
    simp only [ih]

theorem sim_node {a b : Node F} (h : SimN o o' a b) (s : Sums F) : sumNode s a = sumNode s b := by
  unfold sumNode
  rw [h.kind, h.sums]

theorem sim_fold {N N' : List (Node F)} (h : List.Forall₂ (SimN o o') N N') (s : Sums F) :
    N.foldl sumNode s = N'.foldl sumNode s := by
  induction h generalizing s with
  | nil => rfl
  | cons h1 _ ih => rw [List.foldl_cons, List.foldl_cons, sim_node h1, ih]

theorem sim_sumAt {N N' : List (Node F)} (h : List.Forall₂ (SimN o o') N N') (i : Nat) : sumAt N i = sumAt N' i := by
  unfold sumAt
  rw [sim_find h]
  exact sim_fold (List.forall₂_drop _ (List.forall₂_take _ h)) _

theorem sim_from {N N' : List (Node F)} (h : List.Forall₂ (SimN o o') N N') (f : Bool) (s : Sums F) :
    sumFromLoop f N s = sumFromLoop f N' s := by
  induction h generalizing f s with
  | nil => rfl
  | cons h1 _ ih =>
    unfold sumFromLoop
    rw [h1.kind, h1.sums, h1.forced, ih, ih]

theorem sim_skip {N N' : List (Node F)} (h : List.Forall₂ (SimN o o') N N') (j : Nat) : skipLoop N j = skipLoop N' j := by
  induction h generalizing j with
  | nil => rfl
  | cons h1 _ ih =>
    unfold skipLoop
    rw [h1.kind, h1.forced, ih]

/-- Slices of such nodes. -/
theorem sim_slice {N N' : List (Node F)} (h : List.Forall₂ (SimN o o') N N') (a b : Int) :
    (∃ e, slice N a b = .error e ∧ slice N' a b = .error e) ∨
    ∃ n n', slice N a b = .ok n ∧ slice N' a b = .ok n' ∧ List.Forall₂ (SimN o o') n n' := by
  unfold slice
  rw [← h.length_eq]
  split
  · exact Or.inr ⟨_, _, rfl, rfl, List.forall₂_take _ (List.forall₂_drop _ h)⟩
  · exact Or.inl ⟨_, rfl, rfl⟩

theorem sim_skipNodes {N N' : List (Node F)} (h : List.Forall₂ (SimN o o') N N') (s : Nat) : skipNodes s N = skipNodes s N' := by
  unfold skipNodes
  rcases sim_slice h s N.length with ⟨e, h1, h2⟩ | ⟨n, n', h1, h2, h3⟩
  · rw [← h.length_eq, h1, h2]
  · rw [← h.length_eq, h1, h2]
    simp only [ok_bind]
    rw [sim_skip h3]

/-- Lines of such nodes. -/
theorem sim_lines {N N' : List (Node F)} (h : List.Forall₂ (SimN o o') N N') (pts : List (Point F)) (s : Nat) :
    (∃ e, linesLoop N pts s = .error e ∧ linesLoop N' pts s = .error e) ∨
    ∃ n n', linesLoop N pts s = .ok n ∧ linesLoop N' pts s = .ok n' ∧
      List.Forall₂ (fun x y => x.1 = y.1 ∧ List.Forall₂ (SimN o o') x.2 y.2) n n' := by
  induction pts generalizing s with
  | nil => exact Or.inr ⟨[], [], rfl, rfl, .nil⟩
  | cons p pts ih =>
    unfold linesLoop
    rw [← sim_skipNodes h]
    cases h1 : skipNodes s N with
    | error e => exact Or.inl ⟨e, rfl, rfl⟩
    | ok k =>
      rw [ok_bind, ok_bind]
      rcases sim_slice h k ((p.position : Int) + 1) with ⟨e, g1, g2⟩ | ⟨n, n', g1, g2, g3⟩
      · rw [g1, g2]; exact Or.inl ⟨e, rfl, rfl⟩
      · rw [g1, g2, ok_bind, ok_bind]
        rcases ih p.position with ⟨e, k1, k2⟩ | ⟨r, r', k1, k2, k3⟩
        · rw [k1, k2]; exact Or.inl ⟨e, rfl, rfl⟩
        · rw [k1, k2]
          exact Or.inr ⟨_, _, rfl, rfl, .cons ⟨rfl, g3⟩ k3⟩

/-- The other options are the same. -/
structure SameBut (o o' : Options F) : Prop where
  render : o'.renderHyphens = o.renderHyphens
  factor : o'.scaleFactor = o.scaleFactor
  tolerance : o'.tolerance = o.tolerance

theorem sim_nodesLoop (hb : SameBut o o') {N N' : List (Node F)} (h : List.Forall₂ (SimN o o') N N') (attrs : AState) (ratio : F)
    (out : List Rune) (it : AIter) : nodesLoop o attrs ratio N out it = nodesLoop o' attrs ratio N' out it := by
  induction h generalizing out it with
  | nil => rfl
  | @cons a b as bs h1 h2 ih =>
    unfold nodesLoop
    rw [← h1.kind]
    cases hk : a.kind with
    | box =>
      simp only
      have : renderBox attrs a out = renderBox attrs b out := by unfold renderBox; rw [h1.attr, h1.value]
      rw [this, h1.attr, ih]
    | glue =>
      simp only
      have : glueText o ratio a = glueText o' ratio b := by
        unfold glueText Options.downScale
        rw [h1.sums, hb.factor]
      rw [this]
      simp only [ih]
    | penalty =>
      simp only
      have he : as.isEmpty = bs.isEmpty := by cases h2 <;> rfl
      rw [he, hb.render]
      cases hr : o.renderHyphens with
      | false => simp [ih]
      | true => rw [h1.hyphen hk hr, ih]

theorem sim_renderLoop (hb : SameBut o o') (attrs : AState) {n n' : List (F × List (Node F))}
    (h : List.Forall₂ (fun x y => x.1 = y.1 ∧ List.Forall₂ (SimN o o') x.2 y.2) n n') (it : AIter) :
    renderLoop o attrs n it = renderLoop o' attrs n' it := by
  induction h generalizing it with
  | nil => rfl
  | cons h1 _ ih =>
    unfold renderLoop
    simp only [h1.1, sim_nodesLoop hb h1.2, ih]

theorem sim_render (hb : SameBut o o') (attrs : AState) {N N' : List (Node F)} (h : List.Forall₂ (SimN o o') N N')
    (pts : List (Point F)) : render o attrs N pts = render o' attrs N' pts := by
  unfold render
  rcases sim_lines h pts.tail 0 with ⟨e, g1, g2⟩ | ⟨n, n', g1, g2, g3⟩
  · rw [g1, g2]; rfl
  · rw [g1, g2, ok_bind, ok_bind, sim_renderLoop hb attrs g3]

/-- The same steps. -/
theorem sim_new (hb : SameBut o o') {N N' : List (Node F)} (h : List.Forall₂ (SimN o o') N N') (ideal : F) (i : Nat) {x x' : Node F}
    (hx : SimN o o' x x') (rt : Runtime) (act act' : List (BreakPoint F)) (ha : SameFind act act') :
    newPoints rt (ctxAt o N ideal i x) act = newPoints rt (ctxAt o' N' ideal i x') act' := by
  have hr : ∀ a, (ctxAt o N ideal i x).ratio a = (ctxAt o' N' ideal i x').ratio a := by
    intro a
    unfold Ctx.ratio ctxAt adjustmentRatio
    simp only [sim_sumAt h, hx.kind, hx.sums]
  have ht : (ctxAt o N ideal i x).tot = (ctxAt o' N' ideal i x').tot := by
    unfold Ctx.tot ctxAt sumFromNode
    simp only [sim_sumAt h]
    exact sim_from (List.forall₂_drop _ h) _ _
  have hp : ∀ c, (ctxAt o N ideal i x).pick act c = (ctxAt o' N' ideal i x').pick act' c := by
    intro c
    unfold Ctx.pick Ctx.feas Ctx.cls
    simp only [hr]
    have htol : (ctxAt o N ideal i x).l.tolerance = (ctxAt o' N' ideal i x').l.tolerance := hb.tolerance.symm
    rw [htol]
    exact ha _
  unfold newPoints
  simp only [hp, ht]
  rfl

end

variable [Laws F]

/-- The nodes for two penalties. -/
theorem sim_parNodes {l l' : LineBreaker F} {m : Measure} (hs : Setup l m) (hs' : Setup l' m)
    (hm : l'.measurer = l.measurer) (hf : l'.scaleFactor = l.scaleFactor)
    (hown : l.renderHyphens = true → OwnPenalty l.toOptions) (hown' : l.renderHyphens = true → OwnPenalty l'.toOptions)
    (k : Nat) (bs : List Block) :
    List.Forall₂ (fun a b => SimN l.toOptions l'.toOptions a.node b.node) (parNodes l m k bs) (parNodes l' m k bs) := by
  have hbox : ∀ k t, boxT l m k t = boxT l' m k t := by
    intro k t
    unfold boxT Options.scale
    rw [hm, hf]
  have hg : l'.glueStretch = l.glueStretch := by rw [hs.stretch, hs'.stretch]
  have hp : l'.punctuationPenalty = l.punctuationPenalty := by rw [hs.punct, hs'.punct]
  have hh : l'.hardHyphenPenalty = l.hardHyphenPenalty := by rw [hs.hard, hs'.hard]
  have hsp : l'.spaceWidth = l.spaceWidth := by rw [hs.space, hs'.space]
  have hhw : l'.hyphenWidth = l.hyphenWidth := by rw [hs.hyphen, hs'.hyphen]
  have hr : l'.renderHyphens = l.renderHyphens := by rw [hs.addHyphens, hs'.addHyphens]
  have keep : ∀ n : Node F, n.kind ≠ .penalty → SimN l.toOptions l'.toOptions n n := fun n h => .same (fun e => absurd e h)
  have fixed : ∀ (w p : F) (b : Bool), (l.renderHyphens = true → Arith.eq p l.hyphenPenalty = false) →
      (l.renderHyphens = true → Arith.eq p l'.hyphenPenalty = false) →
      SimN l.toOptions l'.toOptions (newPenalty w p b) (newPenalty w p b) := by
    intro w p b h1 h2
    refine .same (fun _ e => ?_)
    show Arith.eq p l.hyphenPenalty = Arith.eq p l'.hyphenPenalty
    rw [h1 e, h2 e]
  have pinf : ∀ (w : F) (b : Bool), SimN l.toOptions l'.toOptions (newPenalty w infinity b) (newPenalty w infinity b) :=
    fun w b => fixed w _ b (fun _ => by rw [Laws.eq_comm]; exact hs.finite) (fun _ => by rw [Laws.eq_comm]; exact hs'.finite)
  have pmin : ∀ (w : F) (b : Bool), SimN l.toOptions l'.toOptions (newPenalty w minusInfinity b) (newPenalty w minusInfinity b) :=
    fun w b => fixed w _ b (fun _ => by rw [Laws.eq_comm]; exact hs.minus) (fun _ => by rw [Laws.eq_comm]; exact hs'.minus)
  have pzero : ∀ (w : F) (b : Bool), SimN l.toOptions l'.toOptions (newPenalty w zero b) (newPenalty w zero b) :=
    fun w b => fixed w _ b (fun e => (hown e).gap) (fun e => (hown' e).gap)
  have pmark : ∀ (w : F) (b : Bool), SimN l.toOptions l'.toOptions (newPenalty w l.punctuationPenalty b)
      (newPenalty w l.punctuationPenalty b) :=
    fun w b => fixed w _ b (fun e => by rw [hs.punct]; exact (hown e).mark) (fun e => by rw [hs.punct]; exact (hown' e).mark)
  have phard : ∀ (w : F) (b : Bool), SimN l.toOptions l'.toOptions (newPenalty w l.hardHyphenPenalty b)
      (newPenalty w l.hardHyphenPenalty b) :=
    fun w b => fixed w _ b (fun e => by rw [hs.hard]; exact (hown e).hard) (fun e => by rw [hs.hard]; exact (hown' e).hard)
  have psoft : ∀ (w : F) (b : Bool), SimN l.toOptions l'.toOptions (newPenalty w l.hyphenPenalty b)
      (newPenalty w l'.hyphenPenalty b) := by
    intro w b
    refine ⟨rfl, rfl, rfl, rfl, ?_, ?_, ?_⟩
    · show Arith.eq l.hyphenPenalty infinity = Arith.eq l'.hyphenPenalty infinity
      rw [hs.finite, hs'.finite]
    · show Arith.eq l.hyphenPenalty minusInfinity = Arith.eq l'.hyphenPenalty minusInfinity
      rw [hs.minus, hs'.minus]
    · intro _ e
      show Arith.eq l.hyphenPenalty l.hyphenPenalty = Arith.eq l'.hyphenPenalty l'.hyphenPenalty
      rw [(hown e).number, (hown' e).number]
  have glue : ∀ a b c : F, SimN l.toOptions l'.toOptions (newGlue a b c) (newGlue a b c) := fun a b c => keep _ (by simp [newGlue])
  have box : ∀ k t, SimN l.toOptions l'.toOptions (boxT l m k t).node (boxT l m k t).node :=
    fun k t => keep _ (by simp [boxT, newBox])
  have app : ∀ {a b c d : List (TN F)}, List.Forall₂ (fun a b => SimN l.toOptions l'.toOptions a.node b.node) a b →
      List.Forall₂ (fun a b => SimN l.toOptions l'.toOptions a.node b.node) c d →
      List.Forall₂ (fun a b => SimN l.toOptions l'.toOptions a.node b.node) (a ++ c) (b ++ d) := by
    intro a b c d h1 h2
    exact List.rel_append h1 h2
  have hblock : ∀ (b : Block) (k : Nat), List.Forall₂ (fun a b => SimN l.toOptions l'.toOptions a.node b.node)
      (b.tn l m k) (b.tn l' m k) := by
    intro b k
    cases b with
    | box t =>
      simp only [Block.tn, ← hbox]
      exact .cons (box k t) .nil
    | mark t =>
      simp only [Block.tn, markT, ← hbox, hg, hp]
      exact .cons (pinf _ _) (.cons (glue _ _ _) (.cons (box k t) (.cons (pmark _ _) (.cons (glue _ _ _) .nil))))
    | hard t =>
      simp only [Block.tn, markT, ← hbox, hg, hh]
      exact .cons (pinf _ _) (.cons (glue _ _ _) (.cons (box k t) (.cons (phard _ _) (.cons (glue _ _ _) .nil))))
    | soft =>
      simp only [Block.tn, softT, hr, hg, hhw]
      split
      · exact .cons (pinf _ _) (.cons (glue _ _ _) (.cons (psoft _ _) (.cons (glue _ _ _) .nil)))
      · exact .cons (psoft _ _) .nil
    | gap =>
      simp only [Block.tn, gapT, hg, hsp]
      exact .cons (glue _ _ _) (.cons (pzero _ _) (.cons (glue _ _ _) .nil))
  unfold parNodes
  refine app ?_ (.cons (glue _ _ _) (.cons (pmin _ _) .nil))
  induction bs generalizing k with
  | nil => exact .nil
  | cons b bs ih => exact app (hblock b k) (ih _)

/-- **The penalty of hyphens does not matter.** -/
theorem align_penalty {rt : Runtime} (hrt : ∀ (i n : Nat) (c : Class), c ∈ rt.order i n) {env : Env} {l l' : LineBreaker F}
    {sp : Splitter} (hsp : Splits env l sp) (hsp' : Splits env l' sp)
    {m : Measure} (hs : Setup l m) (hs' : Setup l' m) (hm : l'.measurer = l.measurer) (hf : l'.scaleFactor = l.scaleFactor)
    (htl : l'.tolerance = l.tolerance)
    (hown : l.renderHyphens = true → OwnPenalty l.toOptions) (hown' : l.renderHyphens = true → OwnPenalty l'.toOptions)
    (tokens : List (List Rune)) (tks : List (List Span))
    (hst : List.Forall₂ (Strips rt env) tokens tks)
    (hne : tokens ≠ []) (L : List Piece) (hL : l.attrList = lv 0 L) (hL' : l'.attrList = lv 0 L)
    (maxWidth : F) (W : Int) (hW : l.scale maxWidth = Arith.ofInt W) (hpos : 0 < W)
    (ht : Tol l.toOptions) (ht' : Tol l'.toOptions) (htame : TameOpts l) (htame' : TameOpts l')
    (hstart : StartsWithPart (syms (parBlocks sp tks)))
    (hB : lineWidth m (syms (parBlocks sp tks)) + m.hyphen + |W| ≤ Laws.bound F) :
    (leftAlignUniform rt env l tokens maxWidth).map Prod.fst = (leftAlignUniform rt env l' tokens maxWidth).map Prod.fst := by
  obtain ⟨T, hTd⟩ : ∃ T, T = parNodes l m L.length (parBlocks sp tks) := ⟨_, rfl⟩
  obtain ⟨T', hTd'⟩ : ∃ T', T' = parNodes l' m L.length (parBlocks sp tks) := ⟨_, rfl⟩
  have hsim : List.Forall₂ (fun a b => SimN l.toOptions l'.toOptions a.node b.node) T T' := by
    rw [hTd, hTd']; exact sim_parNodes hs hs' hm hf hown hown' _ _
  have hsn : List.Forall₂ (SimN l.toOptions l'.toOptions) (nds T) (nds T') := by
    unfold nds
    rw [List.forall₂_map_left_iff, List.forall₂_map_right_iff]
    exact hsim
  have hbut : SameBut l.toOptions l'.toOptions := ⟨by rw [hs.addHyphens, hs'.addHyphens], hf, htl⟩
  have hW' : l'.scale maxWidth = Arith.ofInt W := by
    rw [← hW]; unfold Options.scale; rw [hf]
  have hT : Para l m T := hTd ▸ para_parNodes hs L.length (parBlocks sp tks) (noSoft_par sp tks)
  have hT' : Para l' m T' := hTd' ▸ para_parNodes hs' L.length (parBlocks sp tks) (noSoft_par sp tks)
  have hsy : symsT T = syms (parBlocks sp tks) := by rw [hTd]; exact symsT_parNodes _ _
  have hsy' : symsT T' = syms (parBlocks sp tks) := by rw [hTd']; exact symsT_parNodes _ _
  have hroom : Room m T W := ⟨by rw [hsy]; exact hB⟩
  have hroom' : Room m T' W := ⟨by rw [hsy']; exact hB⟩
  have hstart1 : StartsWithPart (symsT T) := by rw [hsy]; exact hstart
  have hstart1' : StartsWithPart (symsT T') := by rw [hsy']; exact hstart
  obtain ⟨act, h1, _, h2⟩ := align_eq hsp hs tokens tks hst hne L hL maxWidth T hTd
  obtain ⟨act', h1', _, h2'⟩ := align_eq hsp' hs' tokens tks hst hne L hL' maxWidth T' hTd'
  rw [hW, loop_start hs hT hroom] at h1
  rw [hW', loop_start hs' hT' hroom'] at h1'
  have hlen : T.length = T'.length := hsim.length_eq
  have hfs : findStartNode (nds T) 0 = findStartNode (nds T') 0 := sim_find hsn 0
  have hslt : findStartNode (nds T) 0 < T.length := by
    have := (para_start hT).1
    simpa [nds] using this
  have htl : (T.take (findStartNode (nds T) 0)).length = findStartNode (nds T) 0 := by simp; omega
  have htl' : (T'.take (findStartNode (nds T') 0)).length = findStartNode (nds T') 0 := by simp; omega
  have hi0 : Inv l m T W (T.take (findStartNode (nds T) 0)).length [rootPoint] := by
    rw [htl]; exact inv_root hs hT hroom
  have hi0' : Inv l' m T' W (T'.take (findStartNode (nds T') 0)).length [rootPoint] := by
    rw [htl']; exact inv_root hs' hT' hroom'
  obtain ⟨res, res', k1, k2, k3⟩ := loop_two hs hs' hT hT' hroom hroom' hstart1 hstart1' ht ht' htame htame' hpos hpos rt rt hrt hrt
    hlen (by
      intro u x v u' x' v' a1 a2 a3
      have hux : List.Forall₂ (fun a b => SimN l.toOptions l'.toOptions a.node b.node) u u' ∧
          List.Forall₂ (fun a b => SimN l.toOptions l'.toOptions a.node b.node) (x :: v) (x' :: v') := by
        have e1 := List.forall₂_take u.length hsim
        have e2 := List.forall₂_drop u.length hsim
        rw [a1, List.take_left] at e1
        rw [a2, a3, List.take_left] at e1
        rw [a1, List.drop_left] at e2
        rw [a2, a3, List.drop_left] at e2
        exact ⟨e1, e2⟩
      obtain ⟨hu, hxv⟩ := hux
      cases hxv with
      | cons hx hv =>
      have hlast : (u.getLast?.map TN.node).map Node.kind = (u'.getLast?.map TN.node).map Node.kind := by
        have := List.rel_reverse hu
        rw [List.getLast?_eq_head?_reverse, List.getLast?_eq_head?_reverse]
        revert this
        generalize u.reverse = a
        generalize u'.reverse = b
        intro h
        cases h with
        | nil => rfl
        | cons h _ => simp [h.kind]
      refine ⟨?_, fun _ _ act act' _ _ hsame => ?_⟩
      · unfold LegalAt
        rw [hlast, hx.kind, hx.inf]
      · rw [← a3, sim_new hbut hsn _ _ hx rt act act' hsame]
        exact SameFind.refl _)
    (T.drop (findStartNode (nds T) 0)) (T.take (findStartNode (nds T) 0)) (T'.drop (findStartNode (nds T') 0))
    (T'.take (findStartNode (nds T') 0)) [rootPoint] [rootPoint] (by simp) (by simp) (by rw [htl, htl', hfs])
    (by intro e; have := congrArg List.length e; simp at this; omega) (by omega) (by omega) hi0 hi0' (SameFind.refl _)
  rw [h1] at k1
  rw [h1'] at k2
  cases k1
  cases k2
  rw [h2, h2', ← k3.head]
  cases act.head? with
  | none => rfl
  | some a =>
    simp only
    rw [sim_render hbut _ hsn]
    cases render l'.toOptions (lv 0 (L ++ parPieces sp tks)) (nds T') ((a.toPoint :: a.previous).reverse) <;> rfl

end Verif.Proofs.LB
