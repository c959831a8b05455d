import Verif.Proofs.LBReady
import Verif.Go.Float64

/-! # Requested widths that are not numbers of columns

The search for an ideal width that is any value: where no line is acceptable, and where every line is a
perfect match. -/

set_option linter.unusedSectionVars false
set_option linter.unusedSimpArgs false

namespace Verif.Proofs.LB
open Verif.Go Verif.Model Verif.Model.LB Verif.Spec Verif.Spec.LB

variable {F : Type} [Arith F] [Laws F]

/-- The ratio of a line of width `w` and stretch `st` for the ideal width `z`. -/
def ratioOf (z : F) (w st : Int) : F :=
  if Arith.lt (Arith.ofInt w) z then
    if 0 < st then Arith.div (Arith.sub z (Arith.ofInt w)) (Arith.ofInt st) else infinity
  else if Arith.lt z (Arith.ofInt w) then infinity else zero

theorem adjustmentRatio_of (sw ss : Int) (z : F) (x : TN F)
    (hx : x.node.sums = ⟨Arith.ofInt x.w, Arith.ofInt x.st, Arith.ofInt 0⟩)
    (h3 : |sw| ≤ Laws.bound F) (h4 : |ss| ≤ Laws.bound F)
    (h8 : x.node.kind = .penalty → |x.w| ≤ Laws.bound F ∧ |sw + x.w| ≤ Laws.bound F) (w : Int)
    (hw : w = sw + if x.node.kind = .penalty then x.w else 0) :
    adjustmentRatio Sums.zero x.node ⟨Arith.ofInt sw, Arith.ofInt ss, Arith.ofInt 0⟩ z = ratioOf z w ss := by
  have hz : |(0 : Int)| ≤ Laws.bound F := small 0 (by decide)
  have hact : (if x.node.kind = .penalty then Arith.add (Arith.sub (Arith.ofInt sw : F) (Arith.ofInt 0)) x.node.sums.width
      else Arith.sub (Arith.ofInt sw : F) (Arith.ofInt 0)) = Arith.ofInt w := by
    rw [Laws.sub_int _ _ h3 hz (by simpa using h3), hw]
    by_cases hk : x.node.kind = .penalty
    · simp only [hk, if_true, hx, sub_zero]
      exact Laws.add_int _ _ h3 (h8 hk).1 (h8 hk).2
    · simp [hk]
  unfold adjustmentRatio ratioOf
  simp only [Sums.zero, show (zero : F) = Arith.ofInt 0 from rfl]
  rw [hact, Laws.sub_int _ _ h4 hz (by simpa using h4), Laws.sub_int 0 0 hz hz (by simpa using hz),
    Laws.lt_int 0 _ hz (by simpa using h4), Laws.lt_int 0 _ hz (by simpa using hz)]
  simp

section
variable {l : LineBreaker F} {m : Measure} (hs : Setup l m) {T : List (TN F)} (hT : Para l m T) (hW : Room m T 0)
include hs hT hW

/-- The ratio of the first line. -/
theorem ratio_first {o : Options F} (z : F) (u : List (TN F)) (x : TN F) (v : List (TN F)) (h : T = u ++ x :: v)
    (hst : findStartNode (nds T) 0 ≤ u.length) (hl : LegalAt (u.getLast?.map TN.node) x.node) (pr : List (Point F)) :
    ∃ w st : Int, 0 ≤ w ∧ w ≤ lineWidth m (symsT T) + m.hyphen ∧ |st| ≤ 20000 ∧
      (∀ t r, symsT T = .part t :: r → m.text t ≤ w) ∧
      (ctxAt o (nds T) z u.length x.node).ratio ⟨rootPoint.toPoint, pr⟩ = ratioOf z w st := by
  have hwT := Room.width hs hW
  have hf := hT.facts u x v h
  have hend := cut_end (hf.legal hl)
  obtain ⟨s, hs0⟩ : ∃ s, s = findStartNode (nds T) 0 := ⟨_, rfl⟩
  have hsum : (ctxAt o (nds T) z u.length x.node).sum = sumsT m (u.drop s) := by
    simp only [ctxAt]
    rw [sumAt_sumsT hs hT hwT, ← hs0]
    congr 1
    rw [h, List.take_left]
  have hsplit : T = u.take s ++ u.drop s ++ x :: v := by rw [List.take_append_drop]; exact h
  have b := part_bounds hs hT hwT (u.take s) (u.drop s) (x :: v) hsplit
  have r := sumSt_range hs hT (u.take s) (u.drop s) (x :: v) hsplit
  have hend0 : 0 ≤ endWidth m (stopSym x v) ∧ endWidth m (stopSym x v) ≤ m.hyphen := by
    have := hs.hyphen_nonneg
    unfold endWidth
    split
    · split <;> omega
    · omega
  have n1 := lineWidth_nonneg hs (symsT (u.drop s))
  have htot : lineWidth m (symsT (u.drop s)) ≤ lineWidth m (symsT T) := by
    have n3 := lineWidth_nonneg hs (symsT (u.take s))
    have n4 := lineWidth_nonneg hs (symsT (x :: v))
    have := congrArg (fun t => lineWidth m (symsT t)) hsplit
    simp only [symsT_append, lineWidth_append] at this
    omega
  have hB := hW.bound
  rw [abs_zero, add_zero] at hB
  have hxw : x.node.kind = .penalty → x.w = endWidth m (stopSym x v) := by
    intro hk; rw [← hend, if_pos hk]
  refine ⟨lineWidth m (symsT (u.drop s)) + endWidth m (stopSym x v), sumSt (u.drop s), by omega, by omega, r, ?_, ?_⟩
  · intro t r' htr
    obtain ⟨c, y, w', hc, hy, hlt, hcb, hcs⟩ := cut_after_first hT ⟨t, r', htr⟩ u x v h (hf.legal hl)
    have hsc : s ≤ c.length := by
      have := findStartNode_le_box c y w' 0 (Or.inl hy)
      rw [← hc] at this; omega
    obtain ⟨t', k, ey, _⟩ := (hT.facts c y w' hc).box hy
    have htt : t' = t := by
      rw [hc, symsT_append, hcs, symsT_cons, ey] at htr
      simpa [boxT] using (List.cons.inj htr).1
    have hu : u = c ++ y :: u.drop (c.length + 1) := by
      have e1 : u.take c.length = c := by
        have : (u ++ x :: v).take c.length = c := by rw [← h, hc]; simp
        rwa [List.take_append_of_le_length (by omega)] at this
      have e2 : u[c.length]? = some y := by
        have : (u ++ x :: v)[c.length]? = some y := by rw [← h, hc]; simp
        rwa [List.getElem?_append_left hlt] at this
      have e3 : u[c.length] = y := by
        rw [List.getElem?_eq_getElem hlt] at e2
        exact Option.some.inj e2
      conv_lhs => rw [← List.take_append_drop c.length u, e1, List.drop_eq_getElem_cons hlt, e3]
    have hd : u.drop s = c.drop s ++ y :: u.drop (c.length + 1) := by
      conv_lhs => rw [hu]
      rw [List.drop_append_of_le_length hsc]
    have n5 := lineWidth_nonneg hs (symsT (c.drop s))
    have n6 := lineWidth_nonneg hs (symsT (u.drop (c.length + 1)))
    rw [hd, symsT_append, lineWidth_append, symsT_cons, ey]
    simp only [boxT, Option.toList_some, List.singleton_append, lineWidth, htt]
    omega
  have := adjustmentRatio_of (F := F) (lineWidth m (symsT (u.drop s))) (sumSt (u.drop s)) z x hf.coh b.1 b.2 (by
    intro hk
    rw [hxw hk, abs_le, abs_le]
    refine ⟨⟨?_, ?_⟩, ?_, ?_⟩ <;> omega) _ (by rw [hend])
  rw [← this]
  unfold Ctx.ratio
  rw [hsum]
  rfl

end

/-- No line has an acceptable ratio. -/
def NoLine (o : Options F) (z : F) (A B : Int) : Prop :=
  ∀ w st : Int, A ≤ w → w ≤ B → |st| ≤ 20000 → Arith.le (ratioOf z w st) o.tolerance = false

/-- **Refused**: when no line has an acceptable ratio, the text is not set. -/
theorem align_refused {rt : Runtime} {env : Env} {l : LineBreaker F}
    {sp : Splitter} (hsp : Splits env l sp)
    {m : Measure} (hs : Setup l m) (tokens : List (List Rune)) (tks : List (List Span))
    (hst : List.Forall₂ (Strips rt env) tokens tks) (hne : tokens ≠ []) (L : List Piece) (hL : l.attrList = lv 0 L)
    (maxWidth : F) (B : Int) (hB : lineWidth m (syms (parBlocks sp tks)) + m.hyphen ≤ B) (hB2 : B ≤ Laws.bound F)
    (A : Int) (hA : A ≤ 0 ∨ ∃ t r, syms (parBlocks sp tks) = .part t :: r ∧ A ≤ m.text t)
    (hno : NoLine l.toOptions (l.scale maxWidth) A B) :
    leftAlignUniform rt env l tokens maxWidth = .ok (none, { l with attrList := lv 0 (L ++ parPieces sp tks) }) := by
  obtain ⟨T, hTd⟩ : ∃ T, T = parNodes l m L.length (parBlocks sp tks) := ⟨_, rfl⟩
  have hT : Para l m T := hTd ▸ para_parNodes hs L.length (parBlocks sp tks) (noSoft_par sp tks)
  have hsy : symsT T = syms (parBlocks sp tks) := by rw [hTd]; exact symsT_parNodes _ _
  have hroom : Room m T 0 := ⟨by rw [hsy, abs_zero]; omega⟩
  obtain ⟨act, h1, h2, h3⟩ := align_eq hsp hs tokens tks hst hne L hL maxWidth T hTd
  rw [h3]
  cases hh : act.head? with
  | none => rfl
  | some a =>
    exfalso
    obtain ⟨hch, hpos⟩ := h2 a (List.mem_of_mem_head? hh)
    obtain ⟨pts, hp1, hp2⟩ := chain_path hch a.toPoint a.previous [] rfl (Path.nil _)
    rw [List.append_nil] at hp1
    cases hp2 with
    | nil =>
      have e := congrArg List.getLast? hp1
      simp at e
      have : a.position = 0 := by rw [e]; rfl
      have := (para_start hT).2
      omega
    | cons hstep _ =>
      obtain ⟨u', x', v', k1, k2, k3, k4, k5, _⟩ := hstep
      obtain ⟨u, w, e1, e2, e3⟩ := List.map_eq_append_iff.mp k1
      obtain ⟨x, v, e4, e5, e6⟩ := List.map_eq_cons_iff.mp e3
      subst e2 e5 e6
      have hul : (u.map TN.node).length = u.length := by simp
      rw [List.getLast?_map] at k2
      rw [hul] at k3 k5
      rw [e4] at e1
      obtain ⟨w', st, g1, g2, g3, g5, g4⟩ := ratio_first hs hT hroom (o := l.toOptions) (l.scale maxWidth) u x v e1 k3 k2 []
      unfold Ctx.feas at k5
      rw [g4] at k5
      have hAw : A ≤ w' := by
        rcases hA with hA | ⟨t, r, e, hA⟩
        · omega
        · have := g5 t r (by rw [hsy]; exact e)
          omega
      have := hno w' st hAw (by rw [hsy] at g2; omega) g3
      simp only [ctxAt] at k5
      rw [this] at k5
      simp at k5

/-- Neither less nor more than any number. -/
def Unordered (z : F) : Prop := ∀ x : F, Arith.lt x z = false ∧ Arith.lt z x = false

theorem ratio_unordered {z : F} (hz : Unordered z) (x : Ctx F) (hx : x.ideal = z) (a : BreakPoint F) : x.ratio a = zero := by
  unfold Ctx.ratio adjustmentRatio
  simp only [hx, (hz _).1, (hz _).2]
  simp

section
variable {l : LineBreaker F} {m : Measure} (hs : Setup l m) {T : List (TN F)} (hT : Para l m T) {z : F}
  (hz : Unordered z) (ht : Tol l.toOptions) (htame : TameOpts l) (rt : Runtime)
  (hrt : ∀ (i n : Nat) (c : Class), c ∈ rt.order i n)
include hs hT hz ht htame hrt

theorem feas_unordered (x : Ctx F) (hx : x.ideal = z) (hl : x.l = l.toOptions) (a : BreakPoint F) :
    x.feas a = true ∧ x.cls a = .one := by
  have hm : Arith.le (Arith.ofInt (-1) : F) (Arith.ofInt 0) = true := by
    rw [Laws.le_int _ _ (small _ (by decide)) (small _ (by decide))]; rfl
  constructor
  · unfold Ctx.feas
    rw [ratio_unordered hz x hx, hl]
    simp only [Bool.and_eq_true]
    exact ⟨hm, ht.pos⟩
  · unfold Ctx.cls
    rw [ratio_unordered hz x hx]
    unfold newFitnessClass
    have h1 : Arith.lt (zero : F) (Arith.tenths (-5)) = false := Laws.minus_half _ (by
      rw [show (zero : F) = Arith.ofInt 0 from rfl, Laws.le_int _ _ (small _ (by decide)) (small _ (by decide))]; rfl)
    have h2 : Arith.le (zero : F) (Arith.tenths 5) = true := Laws.zero_half
    simp [h1, h2]

/-- The search: the first active break point stays the start of the paragraph. -/
theorem loop_unordered (v u : List (TN F)) (rest : List (BreakPoint F)) (h : T = u ++ v) (hv : v ≠ [])
    (hst : findStartNode (nds T) 0 ≤ u.length)
    (ha : ∀ a ∈ rootPoint :: rest, a.position < T.length ∧ a.totalDemerits = zero) :
    ∃ act', breakLoop rt l.toOptions (nds T) z (u.getLast?.map TN.node) (nds v) u.length
        (sumAt (nds T) u.length) (rootPoint :: rest) = .ok act' ∧ act' ≠ [] ∧
      ∀ a ∈ act', a.previous = [rootPoint.toPoint] := by
  induction v generalizing u rest with
  | nil => exact absurd rfl hv
  | cons x v ih =>
    have hun : (nds T) = nds u ++ x.node :: nds v := by rw [h]; simp [nds]
    have hul : (nds u).length = u.length := by simp [nds]
    have hgl : (nds u).getLast? = u.getLast?.map TN.node := by
      unfold nds; exact List.getLast?_map
    have hb := breakLoop_cons rt l.toOptions (nds T) z (nds u) (nds v) x.node hun (by rw [hul]; exact hst) (rootPoint :: rest)
    rw [hul, hgl] at hb
    have e1 : nds (x :: v) = x.node :: nds v := rfl
    have e2 : (nds u ++ [x.node]).length = (u ++ [x]).length := by simp [nds]
    have e3 : (nds u ++ [x.node]).getLast? = (u ++ [x]).getLast?.map TN.node := by simp
    rw [e1, hb, e2, e3]
    have h' : T = (u ++ [x]) ++ v := by rw [h]; simp
    have hst' : findStartNode (nds T) 0 ≤ (u ++ [x]).length := by simp; omega
    have hf := hT.facts u x v h
    by_cases hl : LegalAt (u.getLast?.map TN.node) x.node
    · rw [if_pos hl]
      have hcut := hf.legal hl
      obtain ⟨ctx, hctx⟩ : ∃ ctx, ctx = ctxAt l.toOptions (nds T) z u.length x.node := ⟨_, rfl⟩
      have hid : ctx.ideal = z := by rw [hctx]; rfl
      have hlo : ctx.l = l.toOptions := by rw [hctx]; rfl
      have hall := feas_unordered hs hT hz ht htame rt hrt ctx hid hlo
      have htm : ∀ a ∈ rootPoint :: rest, ctx.feas a = true → ctx.Tame a := by
        intro a ham hfe
        have hp := demeritsAndClass_eq ctx a (by
          rw [hctx]; simp only [ctxAt, nds, List.length_map]; exact (ha a ham).1)
        unfold Ctx.feas at hfe
        simp only [Bool.and_eq_true] at hfe
        have hn' : ctx.node = x.node := by rw [hctx]; rfl
        rw [hlo] at hp hfe
        have := htame _ a _ _ _ (ha a ham).2 hfe.1 hfe.2 (by
          rw [hn']
          cases hcut with
          | final _ _ h1 h2 _ _ => exact Or.inr ⟨h1, Or.inl h2⟩
          | pen s _ _ h1 h2 _ _ => exact Or.inr ⟨h1, Or.inr ⟨s, h2⟩⟩
          | gap r _ _ _ h =>
            rcases h with ⟨h, _⟩ | ⟨h, h2, _⟩
            · exact Or.inl h
            · exact Or.inr ⟨h, Or.inr ⟨.gap, h2⟩⟩
          | fin y _ _ _ _ h _ _ => exact Or.inl h) hp
        unfold Ctx.Tame
        rw [hlo]
        exact this
      have hres := mainLoop_tame rt ctx (rootPoint :: rest) (by
        intro a ham; rw [hctx]; simp only [ctxAt, nds, List.length_map]; exact (ha a ham).1)
        (fun a ham => (ha a ham).2) htm
      rw [if_neg (by simp)] at hres
      have hpick : ∀ c, ctx.pick (rootPoint :: rest) c = if c = .one then some rootPoint else none := by
        intro c
        unfold Ctx.pick
        by_cases hc : c = .one
        · simp [hc, (hall rootPoint).1, (hall rootPoint).2]
        · rw [if_neg hc, List.find?_eq_none]
          intro a _
          simp [(hall a).2, Ne.symm hc]
      obtain ⟨new, hnew⟩ : ∃ new, new = (rt.order ctx.index 0).filterMap
          (fun c => (ctx.pick (rootPoint :: rest) c).map (newBreak ctx.index c ctx.tot)) := ⟨_, rfl⟩
      rw [← hnew] at hres
      have hmem : ∀ a ∈ new, a = newBreak ctx.index .one ctx.tot rootPoint := by
        intro a ham
        rw [hnew, List.mem_filterMap] at ham
        obtain ⟨c, _, hc⟩ := ham
        rw [hpick] at hc
        by_cases hc1 : c = .one
        · rw [if_pos hc1, hc1] at hc; simpa using hc.symm
        · rw [if_neg hc1] at hc; cases hc
      have hsome : newBreak ctx.index .one ctx.tot rootPoint ∈ new := by
        rw [hnew, List.mem_filterMap]
        exact ⟨.one, hrt _ _ _, by rw [hpick, if_pos rfl]; rfl⟩
      have hstep : stepRes rt (ctxAt l.toOptions (nds T) z u.length x.node) (rootPoint :: rest) =
          .ok ((rootPoint :: rest).filter ctx.keep ++ new) := by
        unfold stepRes; rw [← hctx]; exact hres
      rw [hstep, ok_bind]
      have hnode : ctx.node = x.node := by rw [hctx]; rfl
      by_cases hv' : v = []
      · subst hv'
        have hk : (rootPoint :: rest).filter ctx.keep = [] := by
          rw [List.filter_eq_nil_iff]
          intro a _
          simp [Ctx.keep, hnode, hf.forced.mpr rfl]
        rw [hk, List.nil_append]
        refine ⟨new, by simp [nds, breakLoop], ?_, ?_⟩
        · intro e; rw [e] at hsome; simp at hsome
        · intro a ham; rw [hmem a ham]; rfl
      · have hnf : x.node.isForcedBreak = false := by
          cases hc : x.node.isForcedBreak with
          | false => rfl
          | true => exact absurd (hf.forced.mp hc) hv'
        have hm1 : Arith.lt (zero : F) (Arith.ofInt (-1)) = false := by
          rw [show (zero : F) = Arith.ofInt 0 from rfl, Laws.lt_int _ _ (small _ (by decide)) (small _ (by decide))]; rfl
        have hk : (rootPoint :: rest).filter ctx.keep = rootPoint :: rest := by
          rw [List.filter_eq_self]
          intro a _
          simp [Ctx.keep, hnode, hnf, ratio_unordered hz ctx hid, hm1]
        rw [hk, List.cons_append]
        refine ih _ _ h' hv' hst' ?_
        intro a ham
        rw [← List.cons_append, List.mem_append] at ham
        rcases ham with ham | ham
        · exact ha a ham
        · rw [hmem a ham]
          refine ⟨?_, rfl⟩
          show ctx.index < _
          rw [hctx, h]; simp [ctxAt]
    · rw [if_neg hl, ok_bind]
      have hv' : v ≠ [] := by
        rintro rfl
        apply hl
        right
        have := ((hT.facts u x [] h).last rfl).2.1
        rw [this]
        refine ⟨rfl, ?_⟩
        simp [newPenalty, minusInfinity, infinity, eq_small (F := F) (-10000) 10000 (by decide) (by decide)]
      exact ih _ _ h' hv' hst' ha

end

/-- **Accepted as one line**: when the ideal width is neither less nor more than any number, the whole text is set on
one line. -/
theorem align_unordered {rt : Runtime} (hrt : ∀ (i n : Nat) (c : Class), c ∈ rt.order i n) {env : Env} {l : LineBreaker F}
    {sp : Splitter} (hsp : Splits env l sp)
    {m : Measure} (hs : Setup l m) (tokens : List (List Rune)) (tks : List (List Span))
    (hst : List.Forall₂ (Strips rt env) tokens tks) (hne : tokens ≠ []) (L : List Piece) (hL : l.attrList = lv 0 L)
    (maxWidth : F) (hz : Unordered (l.scale maxWidth)) (g : List Rune) (hg : Pads l.toOptions m g)
    (ht : Tol l.toOptions) (htame : TameOpts l) (hstart : StartsWithPart (syms (parBlocks sp tks)))
    (hB : lineWidth m (syms (parBlocks sp tks)) + m.hyphen ≤ Laws.bound F) :
    ∃ seg, LineOf l seg ⟨syms (parBlocks sp tks), []⟩ ∧
      boxes seg = boxes (parNodes l m L.length (parBlocks sp tks)) ∧
      (∀ z ∈ seg, z ∈ parNodes l m L.length (parBlocks sp tks)) ∧
      leftAlignUniform rt env l tokens maxWidth =
        .ok (some (renderSegs l (lv 0 (L ++ parPieces sp tks)) g [seg] (AState.iterator (lv 0 (L ++ parPieces sp tks)))),
          { l with attrList := lv 0 (L ++ parPieces sp tks) }) := by
  obtain ⟨T, hTd⟩ : ∃ T, T = parNodes l m L.length (parBlocks sp tks) := ⟨_, rfl⟩
  have hT : Para l m T := hTd ▸ para_parNodes hs L.length (parBlocks sp tks) (noSoft_par sp tks)
  have hsy : symsT T = syms (parBlocks sp tks) := by rw [hTd]; exact symsT_parNodes _ _
  have hroom : Room m T 0 := ⟨by rw [hsy, abs_zero]; omega⟩
  have hstart' : StartsWithPart (symsT T) := by rw [hsy]; exact hstart
  have hsl : startLine (syms (parBlocks sp tks)) = syms (parBlocks sp tks) := by
    obtain ⟨t, r, e⟩ := hstart; rw [e]; rfl
  obtain ⟨act, h1, h2, h3⟩ := align_eq hsp hs tokens tks hst hne L hL maxWidth T hTd
  have hslt : findStartNode (nds T) 0 < T.length := by
    have := (para_start hT).1
    simpa [nds] using this
  have htl : (T.take (findStartNode (nds T) 0)).length = findStartNode (nds T) 0 := by simp; omega
  obtain ⟨act', k1, k2, k3⟩ := loop_unordered hs hT hz ht htame rt hrt (T.drop (findStartNode (nds T) 0))
    (T.take (findStartNode (nds T) 0)) [] (by simp) (by
      intro e; have := congrArg List.length e; simp at this; omega) (by omega) (by
      intro a ha
      simp at ha
      subst ha
      exact ⟨by show 0 < T.length; omega, rfl⟩)
  rw [htl] at k1
  have e1 : (T.take (findStartNode (nds T) 0)).getLast?.map TN.node =
      (if findStartNode (nds T) 0 = 0 then none else (nds T)[findStartNode (nds T) 0 - 1]?) := by
    by_cases e : findStartNode (nds T) 0 = 0
    · rw [e]; simp
    · rw [if_neg e, List.getLast?_eq_getElem?, htl, List.getElem?_take]
      rw [if_pos (by omega)]
      simp [nds]
  have e2 : nds (T.drop (findStartNode (nds T) 0)) = (nds T).drop (findStartNode (nds T) 0) := by simp [nds]
  have e3 : sumAt (nds T) (findStartNode (nds T) 0) = Sums.zero := by
    have hwT := Room.width hs hroom
    rw [sumAt_sumsT hs hT hwT, List.drop_of_length_le (by omega)]; rfl
  rw [e1, e2, e3, h1] at k1
  simp only [Except.ok.injEq] at k1
  subst k1
  rw [h3]
  cases hh : act.head? with
  | none =>
    exfalso
    apply k2
    cases act with
    | nil => rfl
    | cons a b => simp at hh
  | some a =>
    obtain ⟨hch, hposa⟩ := h2 a (List.mem_of_mem_head? hh)
    have hprev := k3 a (List.mem_of_mem_head? hh)
    have hTl : (nds T).length = T.length := by simp [nds]
    rw [hprev] at hch
    simp only
    rw [hprev]
    have hstep := chain_step hch
    have hzr := (chain_zero hch a.toPoint (by simp)).2
    obtain ⟨c0, y0, w0, hc0, hy0, _, _⟩ := first_box hT hstart'
    have hc0lt : c0.length < a.position := by
      by_contra hc
      have e : T.length = c0.length + (w0.length + 1) := by rw [hc0]; simp
      have hw0 : w0 = [] := List.eq_nil_of_length_eq_zero (by omega)
      have := ((hT.facts c0 y0 w0 hc0).last hw0).2.1
      rw [this] at hy0; cases hy0
    have hlay := lines_layout hs hT.facts (T := T) (I := fun _ _ => True)
      (R := fun p q => p = rootPoint.toPoint ∧ q = a.toPoint)
      (P := fun _ _ _ _ => True) (o := l.toOptions) (ideal := l.scale maxWidth) false
      (by rintro p q ⟨rfl, rfl⟩; exact hstep) (by rintro p q ⟨rfl, rfl⟩; exact hzr) (fun _ _ _ => trivial)
      (fun _ _ _ _ _ _ _ _ _ _ _ _ _ _ _ => trivial)
      (by
        rintro _ p q ⟨rfl, rfl⟩
        exact ⟨c0, y0, w0, hc0, hy0, Nat.zero_le _, hc0lt⟩)
      [a.toPoint] rootPoint.toPoint true (Path.cons ⟨rfl, rfl⟩ (Path.nil _)) trivial (by
        show 0 < T.length
        omega) (by simp) (by
        intro q hq
        simp at hq
        subst hq; omega)
    have hpos0 : (rootPoint : BreakPoint F).toPoint.position = 0 := rfl
    rw [hpos0] at hlay
    rcases hlay with ⟨he, _⟩ | ⟨segs, lines, g1, g2, g3, g4, g5⟩
    · cases he
    · rw [List.drop_zero, hsy, hsl] at g2
      have hll := linesLoop_length _ _ _ _ g1
      rw [List.length_map] at hll
      have hl1 : lines.length = 1 := by rw [← g3.length_eq, hll]; rfl
      have hlines : lines = [⟨syms (parBlocks sp tks), []⟩] := by
        clear g3 g4 g5 g1 hll
        generalize syms (parBlocks sp tks) = ss at g2
        cases g2 with
        | last p _ _ => rfl
        | brk p s h _ _ _ _ h' =>
          exfalso
          simp only [List.length_cons] at hl1
          generalize startLine _ = r at h'
          cases h' <;> simp at hl1
        | blankLine h _ => cases h
        | lastBlank h => cases h
        | blankAfter p h => cases h
      subst hlines
      cases g3 with
      | cons g3 g3' =>
        cases g3'
        rename_i seg
        refine ⟨seg, g3, ?_, ?_, ?_⟩
        · rw [← hTd]; simpa using g4
        · rw [← hTd]; intro z hz; exact g5 z (by simpa using hz)
        · unfold render
          simp only [List.reverse_cons, List.reverse_nil, List.nil_append, List.cons_append, List.tail_cons]
          rw [g1, ok_bind, renderLoop_eq hs hg _ [seg] (fun x hx => rend_of_facts hT x (g5 x hx))]
          rfl

/-! ## Values of type `float64` -/

open F64 in
theorem unordered_nan : Unordered (F64.nan : F64) := by
  intro x
  constructor
  · show F64.lt x F64.nan = false
    cases x <;> rfl
  · rfl

theorem scale_nan (o : Options F64) : o.scale F64.nan = F64.nan := rfl

theorem scale_one {o : Options F64} (h : o.scaleFactor = Arith.ofInt 1) (x : F64) : o.scale x = F64.round x := by
  unfold Options.scale
  rw [h]
  show F64.round (F64.mul x (Arith.ofInt 1)) = _
  rw [F64.mul_one']

theorem lt_pack_false {x : F64} {p q : Rat} (hx : F64.le (F64.pack false p) x = true) (h : F64.lt (F64.pack false q) (F64.pack false p) = true) :
    F64.le x (F64.pack false q) = false := by
  cases hc : F64.le x (F64.pack false q) with
  | false => rfl
  | true =>
    have h1 := F64.le_trans' hx hc
    have := (inferInstance : Laws F64).le_of_lt _ _ h
    rw [show Arith.le (F64.pack false p) (F64.pack false q) = F64.le (F64.pack false p) (F64.pack false q) from rfl, h1] at this
    cases this

end Verif.Proofs.LB
