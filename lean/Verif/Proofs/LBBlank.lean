import Verif.Proofs.LBIndent

/-! # Paragraphs of empty words, exactly -/

set_option linter.unusedSectionVars false
set_option linter.unusedSimpArgs false

namespace Verif.Proofs.LB
open Verif.Go Verif.Model Verif.Model.LB Verif.Spec Verif.Spec.LB

variable {F : Type} [Arith F] [Laws F]

section
variable {l : LineBreaker F} {m : Measure} (hs : Setup l m) {T : List (TN F)} (hT : Para l m T) {W : Int}
  (hW : Room m T W) (htame : TameOpts l) (rt : Runtime) (hrt : ∀ (i n : Nat) (c : Class), c ∈ rt.order i n)
include hs hT hW htame hrt

/-- The search: the start of the paragraph stays active. -/
theorem loop_root (v u : List (TN F)) (act : List (BreakPoint F)) (h : T = u ++ v) (hv : v ≠ [])
    (hst : findStartNode (nds T) 0 ≤ u.length) (hroot : rootPoint ∈ act)
    (ha : ∀ a ∈ act, a.position < T.length ∧ a.totalDemerits = zero) :
    ∃ act', breakLoop rt l.toOptions (nds T) (Arith.ofInt W) (u.getLast?.map TN.node) (nds v) u.length
        (sumAt (nds T) u.length) act = .ok act' ∧
      ((∀ u' x, T = u' ++ [x] →
        (ctxAt l.toOptions (nds T) (Arith.ofInt W) u'.length x.node).feas rootPoint = true) → act' ≠ []) := by
  induction v generalizing u act with
  | nil => exact absurd rfl hv
  | cons x v ih =>
    have hun : (nds T) = nds u ++ x.node :: nds v := by rw [h]; simp [nds]
    have hul : (nds u).length = u.length := by simp [nds]
    have hgl : (nds u).getLast? = u.getLast?.map TN.node := by
      unfold nds; exact List.getLast?_map
    have hb := breakLoop_cons rt l.toOptions (nds T) (Arith.ofInt W) (nds u) (nds v) x.node hun (by rw [hul]; exact hst) act
    rw [hul, hgl] at hb
    have e1 : nds (x :: v) = x.node :: nds v := rfl
    have e2 : (nds u ++ [x.node]).length = (u ++ [x]).length := by simp [nds]
    have e3 : (nds u ++ [x.node]).getLast? = (u ++ [x]).getLast?.map TN.node := by simp
    rw [e1, hb, e2, e3]
    have h' : T = (u ++ [x]) ++ v := by rw [h]; simp
    have hst' : findStartNode (nds T) 0 ≤ (u ++ [x]).length := by simp; omega
    have hf := hT.facts u x v h
    by_cases hl : LegalAt (u.getLast?.map TN.node) x.node
    · rw [if_pos hl]
      have hcut := hf.legal hl
      obtain ⟨ctx, hctx⟩ : ∃ ctx, ctx = ctxAt l.toOptions (nds T) (Arith.ofInt W) u.length x.node := ⟨_, rfl⟩
      have hlo : ctx.l = l.toOptions := by rw [hctx]; rfl
      have hnode : ctx.node = x.node := by rw [hctx]; rfl
      have htm : ∀ a ∈ act, ctx.feas a = true → ctx.Tame a := by
        intro a ham hfe
        have hp := demeritsAndClass_eq ctx a (by
          rw [hctx]; simp only [ctxAt, nds, List.length_map]; exact (ha a ham).1)
        unfold Ctx.feas at hfe
        simp only [Bool.and_eq_true] at hfe
        rw [hlo] at hp hfe
        have := htame _ a _ _ _ (ha a ham).2 hfe.1 hfe.2 (by
          rw [hnode]
          cases hcut with
          | final _ _ h1 h2 _ _ => exact Or.inr ⟨h1, Or.inl h2⟩
          | pen s _ _ h1 h2 _ _ => exact Or.inr ⟨h1, Or.inr ⟨s, h2⟩⟩
          | gap r _ _ _ h =>
            rcases h with ⟨h, _⟩ | ⟨h, h2, _⟩
            · exact Or.inl h
            · exact Or.inr ⟨h, Or.inr ⟨.gap, h2⟩⟩
          | fin y _ _ _ _ h _ _ => exact Or.inl h) hp
        unfold Ctx.Tame
        rw [hlo]
        exact this
      have hres := mainLoop_tame rt ctx act (by
        intro a ham; rw [hctx]; simp only [ctxAt, nds, List.length_map]; exact (ha a ham).1)
        (fun a ham => (ha a ham).2) htm
      rw [if_neg (by intro e; rw [e] at hroot; simp at hroot)] at hres
      obtain ⟨new, hnew⟩ : ∃ new, new = (rt.order ctx.index 0).filterMap
          (fun c => (ctx.pick act c).map (newBreak ctx.index c ctx.tot)) := ⟨_, rfl⟩
      rw [← hnew] at hres
      have hstep : stepRes rt (ctxAt l.toOptions (nds T) (Arith.ofInt W) u.length x.node) act =
          .ok (act.filter ctx.keep ++ new) := by
        unfold stepRes; rw [← hctx]; exact hres
      rw [hstep, ok_bind]
      have hmem : ∀ a ∈ new, a.position < T.length ∧ a.totalDemerits = zero := by
        intro a ham
        rw [hnew, List.mem_filterMap] at ham
        obtain ⟨c, _, hc⟩ := ham
        simp only [Option.map_eq_some_iff] at hc
        obtain ⟨b, hb, rfl⟩ := hc
        refine ⟨?_, (ha b (List.mem_of_find?_eq_some hb)).2⟩
        show ctx.index < _
        rw [hctx, h]; simp [ctxAt]
      by_cases hv' : v = []
      · subst hv'
        refine ⟨_, by simp [nds, breakLoop]; rfl, ?_⟩
        intro hfe e
        have hfe := hfe u x h
        rw [← hctx] at hfe
        rw [List.append_eq_nil_iff] at e
        have hsome : ∃ b, ctx.pick act (ctx.cls rootPoint) = some b := by
          unfold Ctx.pick
          rw [← Option.isSome_iff_exists, List.find?_isSome]
          exact ⟨rootPoint, hroot, by simp [hfe]⟩
        obtain ⟨b, hb⟩ := hsome
        have : newBreak ctx.index (ctx.cls rootPoint) ctx.tot b ∈ new := by
          rw [hnew, List.mem_filterMap]
          exact ⟨_, hrt _ _ _, by rw [hb]; rfl⟩
        rw [e.2] at this
        simp at this
      · have hnf : x.node.isForcedBreak = false := by
          cases hc : x.node.isForcedBreak with
          | false => rfl
          | true => exact absurd (hf.forced.mp hc) hv'
        have hk : rootPoint ∈ act.filter ctx.keep := by
          rw [List.mem_filter]
          refine ⟨hroot, ?_⟩
          unfold Ctx.keep
          have hr : Arith.lt (ctx.ratio rootPoint) (Arith.ofInt (-1)) = false := by
            have hr := ratio_ge hs hT hW (o := l.toOptions) u x v h hst hcut rootPoint (Or.inl rfl) (by
              show 0 < _
              rw [h]; simp)
            rw [← hctx] at hr
            cases hc : Arith.lt (ctx.ratio rootPoint) (Arith.ofInt (-1)) with
            | false => rfl
            | true =>
              have := Laws.le_of_lt _ _ hc
              rw [hr] at this; cases this
          simp [hnode, hnf, hr]
        refine ih _ _ h' hv' hst' (List.mem_append_left _ hk) ?_
        intro a ham
        rw [List.mem_append] at ham
        rcases ham with ham | ham
        · exact ha a (List.mem_filter.mp ham).1
        · exact hmem a ham
    · rw [if_neg hl, ok_bind]
      have hv' : v ≠ [] := by
        rintro rfl
        apply hl
        right
        have := ((hT.facts u x [] h).last rfl).2.1
        rw [this]
        refine ⟨rfl, ?_⟩
        simp [newPenalty, minusInfinity, infinity, eq_small (F := F) (-10000) 10000 (by decide) (by decide)]
      exact ih _ _ h' hv' hst' hroot ha

end

section
variable {l : LineBreaker F} {m : Measure} (hs : Setup l m) {T : List (TN F)} (hT : Para l m T) {W : Int} {n k : Nat}
  (hTd : T = parNodes l m n (List.replicate k .gap)) (hk : 0 < k) (hW : Room m T W) (ht : Tol l.toOptions) (hpos : 0 < W)

include hTd in
theorem blank_nodes : T = gapsT l m k ++ finT ∧ findStartNode (nds T) 0 = 2 * k + 1 ∧ symsT T = List.replicate k .gap := by
  have hTg : T = gapsT l m k ++ finT := by
    have := tns_gaps l m n k []
    rw [List.append_nil] at this
    rw [hTd, parNodes, this]
    simp [tns]
  refine ⟨hTg, ?_, ?_⟩
  · rw [hTg, gapsT_start]
    have e : nds (finT : List (TN F)) = [newGlue zero infinity zero, newPenalty zero minusInfinity true] := rfl
    rw [e, findStartNode]
    simp only [newGlue]
    rw [findStartNode]
    have hz : Arith.eq (newPenalty (zero : F) minusInfinity true).penalty minusInfinity = true := by
      simp [newPenalty, minusInfinity, eq_small (F := F) (-10000) (-10000) (by decide) (by decide)]
    refine (if_pos hz).trans ?_
    omega
  · rw [hTg, symsT_append, gapsT_syms]
    have : symsT (finT : List (TN F)) = [] := rfl
    rw [this, List.append_nil]

include hTd in
theorem blank_nobox : ∀ z ∈ T, z.node.kind ≠ .box := by
  rw [(blank_nodes hTd).1]
  intro z hz
  rcases List.mem_append.mp hz with hz | hz
  · exact gapsT_nobox l m k z hz
  · simp only [finT, List.mem_cons, List.not_mem_nil, or_false] at hz
    rcases hz with rfl | rfl <;> simp [newGlue, newPenalty]

include hs hT hTd hW ht hpos in
/-- No line follows a break inside the blanks. -/
theorem blank_no_step {p q : Point F} (hp : TotAt m T p)
    (hpq : Step l.toOptions (nds T) (Arith.ofInt W) p q) : False := by
  obtain ⟨hTg, hstart, hsT⟩ := blank_nodes hTd
  have hnb := blank_nobox hTd
  obtain ⟨u, x, v, hu, hqu, hpu, hcut, hfx⟩ := step_cut hT.facts hpq
  obtain ⟨u', x', v', k1, k2, k3, k4, k5, k6⟩ := hpq
  have hul : u'.length = u.length := by rw [← hqu, k6]; rfl
  have hxn : x' = x.node := by
    have e1 : (nds T)[u'.length]? = some x' := by rw [k1]; simp
    have e2 : (nds T)[u.length]? = some x.node := by rw [hu]; simp [nds]
    rw [hul, e2] at e1
    exact (Option.some.inj e1).symm
  subst hxn
  rw [hul] at k5 k3
  -- the totals after the last blank
  obtain ⟨c, y, hcT⟩ : ∃ c y, T = c ++ [y] := by
    refine ⟨T.dropLast, T.getLast (by rw [hu]; simp), ?_⟩
    rw [List.dropLast_append_getLast]
  have hTl : T.length = c.length + 1 := by rw [hcT]; simp
  have hTu : T.length = u.length + (v.length + 1) := by rw [hu]; simp
  have hptot := hp.2 c y [] hcT (by omega) (fun z hz => hnb z (by rw [hcT]; simp [List.mem_of_mem_drop hz])) (Or.inr rfl)
  have hlc := (hT.facts c y [] hcT).last rfl
  obtain ⟨d, hcd⟩ : ∃ d, c = u ++ d := by
    have e := hcT.symm.trans hu
    rcases List.append_eq_append_iff.mp e with ⟨a, h1, h2⟩ | ⟨a, h1, h2⟩
    · have := congrArg List.length h1
      simp at this
      have ha : a = [] := List.eq_nil_of_length_eq_zero (by omega)
      exact ⟨[], by rw [h1, ha]; simp⟩
    · exact ⟨a, h1⟩
  obtain ⟨s, hs0⟩ : ∃ s, s = findStartNode (nds T) 0 := ⟨_, rfl⟩
  rw [← hs0] at hptot k3
  have hwT := Room.width hs hW
  have hsum : (ctxAt l.toOptions (nds T) (Arith.ofInt W) u.length x.node).sum = sumsT m (u.drop s) := by
    simp only [ctxAt]
    rw [sumAt_sumsT hs hT hwT, ← hs0]
    congr 1
    rw [hu, List.take_left]
  have hcs : c.drop s = u.drop s ++ d := by rw [hcd, List.drop_append_of_le_length k3]
  have hTs : T = u.take s ++ u.drop s ++ (d ++ [y]) := by
    rw [List.take_append_drop, hcT, hcd]; simp
  have hTs2 : T = u.take s ++ (u.drop s ++ d) ++ [y] := by
    rw [← List.append_assoc, List.take_append_drop, hcT, hcd]
  have hTs3 : T = u ++ d ++ [y] := by rw [hcT, hcd]
  have b1 := part_bounds hs hT hwT _ _ _ hTs
  have b2 := part_bounds hs hT hwT _ _ _ hTs2
  have b3 := part_bounds hs hT hwT _ _ _ hTs3
  have n1 := lineWidth_nonneg hs (symsT d)
  have htot : lineWidth m (symsT d) ≤ lineWidth m (symsT T) := by
    have n3 := lineWidth_nonneg hs (symsT u)
    have n4 := lineWidth_nonneg hs (symsT [y])
    have := congrArg (fun t => lineWidth m (symsT t)) hTs3
    simp only [symsT_append, lineWidth_append] at this
    omega
  have hB := hW.bound
  have hWn := abs_nonneg W
  have hhn := hs.hyphen_nonneg
  have habsW : |W| ≤ Laws.bound F := by
    have := lineWidth_nonneg hs (symsT T)
    omega
  have hxw : (if x.node.kind = .penalty then x.w else 0) = 0 := by
    cases hcut with
    | final _ _ _ _ h _ => simp [h]
    | pen s e1 e2 _ _ _ _ =>
      exfalso
      have : s ∈ symsT T := by rw [hu, symsT_append, symsT_cons, e1]; simp
      rw [hsT] at this
      rw [(List.mem_replicate.mp this).2] at e2
      simp at e2
    | gap r _ _ h _ => simp [h]
    | fin z _ _ _ _ _ h _ => simp [h]
  have e1 : lineWidth m (symsT (u.drop s ++ d)) = lineWidth m (symsT (u.drop s)) + lineWidth m (symsT d) := by
    rw [symsT_append, lineWidth_append]
  have e2 : sumSt (u.drop s ++ d) = sumSt (u.drop s) + sumSt d := sumSt_append _ _
  have hrat := adjustmentRatio_int (F := F) (lineWidth m (symsT (u.drop s ++ d))) (sumSt (u.drop s ++ d))
    (lineWidth m (symsT (u.drop s))) (sumSt (u.drop s)) W x hfx.coh b2.1 b2.2 b1.1 b1.2
    (by rw [e1, abs_le] at *; constructor <;> omega) (by rw [e2, abs_le] at *; have := b3.2; rw [abs_le] at this; constructor <;> omega) habsW
    (by
      intro hkp
      rw [if_pos hkp] at hxw
      rw [hxw, e1, abs_le, abs_le]
      refine ⟨⟨?_, ?_⟩, ?_, ?_⟩ <;> omega) (-lineWidth m (symsT d)) (by rw [hxw, e1]; omega) (by
      rw [abs_le]
      rcases abs_cases W with ⟨e, _⟩ | ⟨e, _⟩ <;> rw [e] at hB <;> constructor <;> omega)
  have hst : sumSt (u.drop s) - sumSt (u.drop s ++ d) = sumSt u - 10000 := by
    have h4 : sumSt c = 10000 := hlc.2.2.2
    rw [hcd, sumSt_append] at h4
    rw [e2]; omega
  have hsu : sumSt u ≤ 10000 := by
    cases hcut with
    | final _ _ _ _ _ h => omega
    | pen s e1 e2 _ _ _ h => rw [h]; split <;> (try split) <;> omega
    | gap r _ _ _ h => rcases h with ⟨_, h⟩ | ⟨_, _, h⟩ <;> omega
    | fin z _ _ _ _ _ _ h => omega
  have hr : (ctxAt l.toOptions (nds T) (Arith.ofInt W) u.length x.node).ratio ⟨p, []⟩ =
      if -lineWidth m (symsT d) < W then (if 0 < sumSt u - 10000 then
        Arith.div (Arith.ofInt (W - -lineWidth m (symsT d))) (Arith.ofInt (sumSt u - 10000)) else infinity)
      else if W < -lineWidth m (symsT d) then infinity else zero := by
    rw [← hst, ← hrat]
    unfold Ctx.ratio
    rw [hsum]
    show adjustmentRatio p.totals x.node _ _ = _
    rw [hptot, hcs]
    rfl
  have hfe := (feas_iff ht _ rfl _ _ _ _ (by have := small (F := F) 0 (by decide); simp at this; omega) (by
      rw [abs_le]
      rcases abs_cases W with ⟨e, _⟩ | ⟨e, _⟩ <;> rw [e] at hB <;> constructor <;> omega) hr).mp k5
  omega

include hs hT hTd hW ht hk in
/-- The line from the start to the end. -/
theorem blank_final (u : List (TN F)) (x : TN F) (hu : T = u ++ [x]) :
    (ctxAt l.toOptions (nds T) (Arith.ofInt W) u.length x.node).feas rootPoint = true ↔
      (((k + 1) / 3 : Nat) : Int) * m.space = W ∨ ((((k + 1) / 3 : Nat) : Int) * m.space < W ∧
        okRatio l.toOptions (W - ((k + 1) / 3 : Nat) * m.space) (if k % 3 = 1 then 10000 else 9994)) := by
  obtain ⟨hTg, hstart, hsT⟩ := blank_nodes hTd
  have hgl := gapsT_length l m k
  have hTl : T.length = 3 * k + 2 := by rw [hTg, List.length_append, hgl]; rfl
  have hul : u.length = 3 * k + 1 := by
    have : T.length = u.length + 1 := by rw [hu]; simp
    omega
  have hue : u = gapsT l m k ++ [⟨newGlue zero infinity zero, none, 0, 10000⟩] := by
    have h1 : T.take (3 * k + 1) = u := by rw [hu, ← hul]; simp
    rw [← h1, hTg, List.take_append, hgl]
    rw [List.take_of_length_le (by omega)]
    congr 1
    rw [show 3 * k + 1 - 3 * k = 1 by omega]
    rfl
  have hlast := (hT.facts u x [] hu).last rfl
  have hx : LegalAt (u.getLast?.map TN.node) x.node := by
    right
    rw [hlast.2.1]
    refine ⟨rfl, ?_⟩
    simp [newPenalty, minusInfinity, infinity, eq_small (F := F) (-10000) 10000 (by decide) (by decide)]
  have hcut := (hT.facts u x [] hu).legal hx
  have hst : findStartNode (nds T) 0 ≤ u.length := by omega
  have hrat := ratio_at hs hT hW (o := l.toOptions) u [] x [] (by simpa using hu) hst (by simpa using hcut) true
    (rootPoint : BreakPoint F).toPoint [] rfl _ _ rfl rfl
  simp only [List.append_nil] at hrat
  have hfe := feas_iff ht _ rfl _ _ _ _ (by have := hrat.2.1; rw [abs_le] at this; exact this.2) hrat.2.2 hrat.1
  simp only [if_true] at hfe
  have hst0 : u.take (findStartNode (nds T) 0) = T.take (findStartNode (nds T) 0) := by
    have : ∀ s, s ≤ u.length → u.take s = T.take s := by
      intro s h
      rw [hu, List.take_append_of_le_length h]
    exact this _ hst
  have hsum : sumSt u = sumSt (u.take (findStartNode (nds T) 0)) + sumSt (u.drop (findStartNode (nds T) 0)) := by
    rw [← sumSt_append, List.take_append_drop]
  rw [hlast.2.2.2, hst0, hstart, hTg, gapsT_sum l m k _ _ (by omega), ← hstart] at hsum
  have e1 : endWidth m (stopSym x []) = 0 := by
    unfold stopSym
    rw [hlast.1]
    rfl
  have e2 : lineWidth m (symsT (u.drop (findStartNode (nds T) 0))) = (((k + 1) / 3 : Nat) : Int) * m.space := by
    rw [hstart, hue, List.drop_append_of_le_length (by omega), symsT_append, gapsT_drop l m k _ (by omega)]
    have : symsT ([⟨newGlue zero infinity zero, none, 0, 10000⟩] : List (TN F)) = [] := rfl
    rw [this, List.append_nil, lineWidth_gaps m _ (fun s h => (List.mem_replicate.mp h).2), List.length_replicate]
    congr 2
    omega
  have z1 : lineWidth m (symsT ([] : List (TN F))) = 0 := rfl
  have z2 : sumSt ([] : List (TN F)) = 0 := rfl
  have e3 : sumSt (u.drop (findStartNode (nds T) 0)) = if k % 3 = 1 then 10000 else 9994 := by
    by_cases h : k % 3 = 1
    · rw [if_pos h]
      rw [if_pos (by omega)] at hsum
      omega
    · rw [if_neg h]
      rw [if_neg (by omega)] at hsum
      omega
  rw [e1, e2, z1, z2, e3] at hfe
  simp only [zero_add] at hfe
  show (ctxAt l.toOptions (nds T) (Arith.ofInt W) u.length x.node).feas ⟨rootPoint.toPoint, []⟩ = true ↔ _
  rw [hfe]
  have : (0 : Int) < if k % 3 = 1 then 10000 else 9994 := by split <;> omega
  simp [this]

end

/-- **The exact result for empty words**: one blank line, or none. -/
theorem align_blank {rt : Runtime} (hrt : ∀ (i n : Nat) (c : Class), c ∈ rt.order i n) {env : Env} {l : LineBreaker F}
    {sp : Splitter} (hsp : Splits env l sp)
    {m : Measure} (hs : Setup l m) (tokens : List (List Rune)) (tks : List (List Span))
    (hst : List.Forall₂ (Strips rt env) tokens tks) (hne : tokens ≠ []) (L : List Piece) (hL : l.attrList = lv 0 L)
    (maxWidth : F) (W : Int) (hW : l.scale maxWidth = Arith.ofInt W) (hpos : 0 < W) (g : List Rune) (hg : Pads l.toOptions m g)
    (ht : Tol l.toOptions) (htame : TameOpts l) (k : Nat) (hk : 0 < k) (hbl : parBlocks sp tks = List.replicate k .gap)
    (hB : lineWidth m (syms (parBlocks sp tks)) + m.hyphen + |W| ≤ Laws.bound F) :
    let fits := (((k + 1) / 3 : Nat) : Int) * m.space = W ∨ ((((k + 1) / 3 : Nat) : Int) * m.space < W ∧
        okRatio l.toOptions (W - ((k + 1) / 3 : Nat) * m.space) (if k % 3 = 1 then 10000 else 9994))
    (¬ fits → leftAlignUniform rt env l tokens maxWidth = .ok (none, { l with attrList := lv 0 (L ++ parPieces sp tks) })) ∧
    (fits → ∃ seg : List (TN F), (∀ z ∈ seg, z ∈ parNodes l m L.length (parBlocks sp tks)) ∧ LineOf l seg ⟨[], []⟩ ∧
      leftAlignUniform rt env l tokens maxWidth =
        .ok (some (renderSegs l (lv 0 (L ++ parPieces sp tks)) g [seg] (AState.iterator (lv 0 (L ++ parPieces sp tks)))),
          { l with attrList := lv 0 (L ++ parPieces sp tks) })) := by
  intro fits
  obtain ⟨T, hTd⟩ : ∃ T, T = parNodes l m L.length (parBlocks sp tks) := ⟨_, rfl⟩
  have hT : Para l m T := hTd ▸ para_parNodes hs L.length (parBlocks sp tks) (noSoft_par sp tks)
  have hsy : symsT T = syms (parBlocks sp tks) := by rw [hTd]; exact symsT_parNodes _ _
  have hroom : Room m T W := ⟨by rw [hsy]; exact hB⟩
  obtain ⟨act, h1, h2, h3⟩ := align_eq hsp hs tokens tks hst hne L hL maxWidth T hTd
  have hTd2 := hTd
  rw [hbl] at hTd2
  have hslt : findStartNode (nds T) 0 < T.length := by
    have := (para_start hT).1
    simpa [nds] using this
  have htl : (T.take (findStartNode (nds T) 0)).length = findStartNode (nds T) 0 := by simp; omega
  obtain ⟨act', k1, k2⟩ := loop_root hs hT hroom htame rt hrt (T.drop (findStartNode (nds T) 0))
    (T.take (findStartNode (nds T) 0)) [rootPoint] (by simp) (by
      intro e; have := congrArg List.length e; simp at this; omega) (by omega) (by simp) (by
      intro a ha
      simp at ha
      subst ha
      exact ⟨by show 0 < T.length; omega, rfl⟩)
  rw [htl] at k1
  have e1 : (T.take (findStartNode (nds T) 0)).getLast?.map TN.node =
      (if findStartNode (nds T) 0 = 0 then none else (nds T)[findStartNode (nds T) 0 - 1]?) := by
    by_cases e : findStartNode (nds T) 0 = 0
    · rw [e]; simp
    · rw [if_neg e, List.getLast?_eq_getElem?, htl, List.getElem?_take]
      rw [if_pos (by omega)]
      simp [nds]
  have e2 : nds (T.drop (findStartNode (nds T) 0)) = (nds T).drop (findStartNode (nds T) 0) := by simp [nds]
  have e3 : sumAt (nds T) (findStartNode (nds T) 0) = Sums.zero := by
    have hwT := Room.width hs hroom
    rw [sumAt_sumsT hs hT hwT, List.drop_of_length_le (by omega)]; rfl
  rw [e1, e2, e3, ← hW, h1] at k1
  simp only [Except.ok.injEq] at k1
  subst k1
  have hTl : (nds T).length = T.length := by simp [nds]
  -- a path is one line
  have hpath : ∀ a ∈ act, fits ∧ a.previous = [rootPoint.toPoint] := by
    intro a ha
    obtain ⟨hch, hposa⟩ := h2 a ha
    rw [hW] at hch
    obtain ⟨pts, hp1, hp2⟩ := chain_path hch a.toPoint a.previous [] rfl (Path.nil _)
    rw [List.append_nil] at hp1
    cases hp2 with
    | nil =>
      exfalso
      have e := congrArg List.getLast? hp1
      simp at e
      have : a.position = 0 := by rw [e]; rfl
      have := (para_start hT).2
      omega
    | cons hpq hrest =>
      rename_i q rest
      cases hrest with
      | cons h _ => exact (blank_no_step hs hT hTd2 hroom ht hpos (step_tot hs hT hroom hpq) h).elim
      | nil =>
        have hrev := congrArg List.reverse hp1
        simp at hrev
        refine ⟨?_, hrev.2⟩
        obtain ⟨u', x', v', k1, k2', k3, k4, k5, k6⟩ := hpq
        have hqu : q.position = u'.length := by rw [k6]; rfl
        have hlen : (nds T).length = u'.length + (v'.length + 1) := by rw [k1]; simp
        have hv : v' = [] := List.eq_nil_of_length_eq_zero (by rw [hrev.1] at hposa; omega)
        subst hv
        obtain ⟨u, w, e1, e2, e3⟩ := List.map_eq_append_iff.mp k1
        obtain ⟨x, v, e4, e5, e6⟩ := List.map_eq_cons_iff.mp e3
        have hvn : v = [] := by simpa using e6
        subst hvn
        subst e2 e5
        rw [e4] at e1
        have hul : (u.map TN.node).length = u.length := by simp
        rw [hul] at k5
        exact (blank_final hs hT hTd2 hk hroom ht u x e1).mp k5
  constructor
  · intro hno
    rw [h3]
    cases hh : act.head? with
    | none => rfl
    | some a => exact absurd (hpath a (List.mem_of_mem_head? hh)).1 hno
  · intro hfit
    have hne' := k2 (fun u x hu => (blank_final hs hT hTd2 hk hroom ht u x hu).mpr hfit)
    rw [h3]
    cases hh : act.head? with
    | none =>
      exfalso
      apply hne'
      cases act with
      | nil => rfl
      | cons a b => simp at hh
    | some a =>
      obtain ⟨hch, hposa⟩ := h2 a (List.mem_of_mem_head? hh)
      have hprev := (hpath a (List.mem_of_mem_head? hh)).2
      rw [hprev] at hch
      simp only
      rw [hprev]
      have hzr := (chain_zero hch a.toPoint (by simp)).2
      have hTne : T ≠ [] := by rintro rfl; simp at hslt
      obtain ⟨s, y, w, g1, _, _, g4, g5⟩ := skip_split hT.facts [] T rfl hTne
      have hw : w = [] := by
        rcases g4 with g4 | g4
        · exact absurd g4 (blank_nobox hTd2 y (by rw [g1]; simp))
        · exact g4
      subst hw
      have hqT : a.position + 1 = T.length := by omega
      have hlen : T.length = s.length + 1 := by
        conv_lhs => rw [g1]
        simp
      have hseg : slice (nds T) ((0 + s.length : Nat) : Int) ((a.position : Int) + 1) = .ok (nds [y]) := by
        have e : (a.position : Int) + 1 = ((a.position + 1 : Nat) : Int) := by omega
        rw [e, hqT, ← hTl, slice_ok (by omega) (by omega), List.take_of_length_le (by simp), Nat.zero_add]
        congr 1
        conv_lhs => rw [g1]
        simp [nds]
      have hll : linesLoop (nds T) [a.toPoint] 0 = .ok ([[y]].map (fun s => (zero, nds s))) := by
        rw [linesLoop, show skipNodes 0 (nds T) = _ from g5, ok_bind]
        simp only [List.length_nil]
        rw [hseg, ok_bind, linesLoop, ok_bind, hzr]
        rfl
      have hyl := (hT.facts s y [] g1).last rfl
      refine ⟨[y], ?_, ?_, ?_⟩
      · rw [← hTd]; intro z hz; rw [g1]; simp at hz; simp [hz]
      · refine Or.inr ⟨[], y, rfl, by rw [hyl.2.1]; simp [newPenalty], by rw [hyl.1]; simp, ?_⟩
        rw [final_end hs hT.facts y [] s g1 rfl]
        rfl
      · unfold render
        simp only [List.reverse_cons, List.reverse_nil, List.nil_append, List.cons_append, List.tail_cons]
        rw [hll, ok_bind, renderLoop_eq hs hg _ [[y]] (fun x hx => rend_of_facts hT x (by
          rw [g1]; simp at hx; simp [hx]))]
        rfl

section
variable {rt : Runtime} {env : Env} {dict : Dictionary} {opts : List (Opt F)} {text : List Rune → Int} {n : Nat}
  {l : LineBreaker F} {maxWidth : F} {W : Int} {k : Nat}

theorem call_blank (c : Call rt env dict opts text n l (List.replicate (k + 1) []) maxWidth W) (hk : 0 < k) (hpos : 0 < W) :
    let space := (measureOf (defaultOptions opts) text).space
    let fits := (((k + 1) / 3 : Nat) : Int) * space = W ∨ ((((k + 1) / 3 : Nat) : Int) * space < W ∧
        okRatio (defaultOptions opts) (W - ((k + 1) / 3 : Nat) * space) (if k % 3 = 1 then 10000 else 9994))
    ∃ l', (¬ fits → leftAlignUniform rt env l (List.replicate (k + 1) []) maxWidth = .ok (none, l')) ∧
      (fits → leftAlignUniform rt env l (List.replicate (k + 1) []) maxWidth = .ok (some [[]], l')) := by
  intro space fits
  have hk' := kept_used c.sane c.digits c.used
  obtain ⟨L, hL, hl⟩ := hk'.plain
  have ho := hk'.options
  have hlos := lossless (env := env) (dict := dict) c.sane
  have hu : Usual l.toOptions := ho ▸ usual_new c.sane
  have hset := hk'.setup c.sane
  have hok : okRatio l.toOptions = okRatio (defaultOptions opts) := by rw [ho]; rfl
  have := align_blank (rt := rt) c.walks (hk'.splits c.sane) hset _ _ (strips_all rt c.digits _ c.escapeFree) (by simp) L hl
    maxWidth W (by rw [ho]; exact c.scaled) hpos (List.replicate n 0x20) (by rw [ho]; exact pads_new c.sane) hu.tol
    (hu.tame hset) k hk (by rw [parBlocks_bare, paraBlocks_empty hlos]) (by
      rw [parBlocks_bare, syms_paraBlocks]; exact c.exact)
  rw [hok] at this
  refine ⟨_, this.1, fun hf => ?_⟩
  obtain ⟨seg, h1, h2, h3⟩ := this.2 hf
  rw [h3, render_bare hset _ _ L hL _ [seg] [⟨[], []⟩] (List.Forall₂.cons h2 .nil) (by simpa using h1)]
  rfl

end

end Verif.Proofs.LB
