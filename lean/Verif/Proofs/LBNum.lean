import Verif.Proofs.LBRender

/-! # Sums of widths and feasible breaks -/

set_option linter.unusedSectionVars false
set_option linter.unusedSimpArgs false

namespace Verif.Proofs.LB
open Verif.Go Verif.Model Verif.Model.LB Verif.Spec Verif.Spec.LB

variable {F : Type} [Arith F]

/-- More facts on a node. -/
structure More (l : LineBreaker F) (prev : Option (Node F)) (b : Int) (x : TN F) (v : List (TN F)) : Prop where
  range : 0 ≤ b ∧ b ≤ 10000
  st : |x.st| ≤ 10000
  gap : x.tag = some .gap → x.node.kind = .glue ∧ prev = some (newPenalty zero zero false)
  tagged : ∀ s, x.tag = some s → s = .mark ∨ s = .hard ∨ s = .soft →
    x.node.kind = .penalty ∧ x.node.penalty = penOf l s ∧ x.node.flagged = true

theorem along_more {l : LineBreaker F} {m : Measure} (prev : Option (Node F)) (k : Nat) (bs : List Block) :
    Along (More l) prev 0 (parNodes l m k bs) := by
  induction bs generalizing prev k with
  | nil =>
    refine ⟨⟨by simp [boxT], by simp [boxT], by simp, by simp⟩, ⟨by simp [boxT], by simp [boxT], by simp, by simp⟩, trivial⟩
  | cons b rest ih =>
    have e : parNodes l m k (b :: rest) = b.tn l m k ++ parNodes l m (k + b.text.length) rest := by
      simp [parNodes, tns]
    rw [e]
    have ih' := fun prev => ih prev (k + b.text.length)
    cases b with
    | box t =>
      refine ⟨⟨by simp [boxT], by simp [boxT], by simp [boxT], ?_⟩, ih' _⟩
      intro s h1 h2
      simp only [boxT, Option.some.injEq] at h1
      subst h1; simp at h2
    | mark t =>
      refine ⟨⟨by simp [boxT], by simp [boxT], by simp, by simp⟩, ⟨by simp [boxT], by simp [boxT], by simp, by simp⟩,
        ⟨by simp [boxT], by simp [boxT], by simp [boxT], ?_⟩, ⟨by simp [boxT], by simp [boxT], by simp, ?_⟩,
        ⟨by simp [boxT], by simp [boxT], by simp, by simp⟩, ih' _⟩
      · intro s h1 h2
        simp only [boxT, Option.some.injEq] at h1
        subst h1; simp at h2
      · intro s h1 _
        simp only [Option.some.injEq] at h1
        subst h1
        exact ⟨rfl, rfl, rfl⟩
    | hard t =>
      refine ⟨⟨by simp [boxT], by simp [boxT], by simp, by simp⟩, ⟨by simp [boxT], by simp [boxT], by simp, by simp⟩,
        ⟨by simp [boxT], by simp [boxT], by simp [boxT], ?_⟩, ⟨by simp [boxT], by simp [boxT], by simp, ?_⟩,
        ⟨by simp [boxT], by simp [boxT], by simp, by simp⟩, ih' _⟩
      · intro s h1 h2
        simp only [boxT, Option.some.injEq] at h1
        subst h1; simp at h2
      · intro s h1 _
        simp only [Option.some.injEq] at h1
        subst h1
        exact ⟨rfl, rfl, rfl⟩
    | soft =>
      simp only [Block.tn, softT]
      split
      · refine ⟨⟨by simp [boxT], by simp [boxT], by simp, by simp⟩, ⟨by simp [boxT], by simp [boxT], by simp, by simp⟩,
          ⟨by simp [boxT], by simp [boxT], by simp, ?_⟩, ⟨by simp [boxT], by simp [boxT], by simp, by simp⟩, ih' _⟩
        intro s h1 _
        simp only [Option.some.injEq] at h1
        subst h1
        exact ⟨rfl, rfl, rfl⟩
      · refine ⟨⟨by simp [boxT], by simp [boxT], by simp, ?_⟩, ih' _⟩
        intro s h1 _
        simp only [Option.some.injEq] at h1
        subst h1
        exact ⟨rfl, rfl, rfl⟩
    | gap =>
      exact ⟨⟨by simp [boxT], by simp [boxT], by simp, by simp⟩, ⟨by simp [boxT], by simp [boxT], by simp, by simp⟩,
        ⟨by simp [boxT], by simp [boxT], (fun _ => ⟨rfl, rfl⟩), by simp⟩, ih' _⟩

/-- What the proofs use of the nodes of a paragraph. -/
structure Para (l : LineBreaker F) (m : Measure) (T : List (TN F)) : Prop where
  facts : ∀ u x v, T = u ++ x :: v → Facts l m (u.getLast?.map TN.node) (sumSt u) x v
  more : ∀ u x v, T = u ++ x :: v → More l (u.getLast?.map TN.node) (sumSt u) x v
  last : ∃ u, T = u ++ finT
  head : ∀ x, T.head? = some x → x.node.kind = .penalty → x.tag = none ∧ x.node.penalty = infinity
  start : StartsWithPart (symsT T) → sumSt (T.take (findStartNode (nds T) 0)) = 0

variable [Laws F]

theorem para_parNodes {l : LineBreaker F} {m : Measure} (hs : Setup l m) (k : Nat) (bs : List Block)
    (hb : bs.head?.map Block.syms ≠ some [.soft]) : Para l m (parNodes l m k bs) where
  facts := by
    intro u x v h
    have := (Along.split u (h ▸ along_parNodes hs none k bs)).1
    simpa using this
  more := by
    intro u x v h
    have := (Along.split u (h ▸ along_more (l := l) (m := m) none k bs)).1
    simpa using this
  last := ⟨_, rfl⟩
  head := by
    intro x hx hk
    cases bs with
    | nil =>
      simp [parNodes, tns, finT] at hx
      subst hx; cases hk
    | cons b rest =>
      cases b with
      | soft => simp [Block.syms] at hb
      | box t => simp [parNodes, tns, Block.tn, boxT] at hx; subst hx; cases hk
      | gap => simp [parNodes, tns, Block.tn, gapT] at hx; subst hx; cases hk
      | mark t => simp [parNodes, tns, Block.tn, markT] at hx; subst hx; exact ⟨rfl, rfl⟩
      | hard t => simp [parNodes, tns, Block.tn, markT] at hx; subst hx; exact ⟨rfl, rfl⟩
  start := by
    rw [symsT_parNodes]
    intro h
    have hinf : Arith.eq (infinity : F) minusInfinity = false := by
      simp [infinity, minusInfinity, eq_small (F := F) 10000 (-10000) (by decide) (by decide)]
    cases bs with
    | nil => obtain ⟨t, r, e⟩ := h; simp [syms] at e
    | cons b rest =>
      cases b with
      | soft => obtain ⟨t, r, e⟩ := h; simp [syms, Block.syms] at e
      | gap => obtain ⟨t, r, e⟩ := h; simp [syms, Block.syms] at e
      | box t => simp [parNodes, tns, Block.tn, boxT, nds, findStartNode, newBox, sumSt]
      | mark t => simp [parNodes, tns, Block.tn, markT, boxT, nds, findStartNode, newBox, newPenalty, newGlue, hinf, sumSt]
      | hard t => simp [parNodes, tns, Block.tn, markT, boxT, nds, findStartNode, newBox, newPenalty, newGlue, hinf, sumSt]

theorem lineWidth_append (m : Measure) (a b : List Sym) : lineWidth m (a ++ b) = lineWidth m a + lineWidth m b := by
  induction a with
  | nil => simp [lineWidth]
  | cons s a ih => cases s <;> simp [lineWidth, ih] <;> omega

theorem sumSt_append (a b : List (TN F)) : sumSt (a ++ b) = sumSt a + sumSt b := by simp [sumSt]

/-- The sums of nodes. -/
def sumsT (m : Measure) (ts : List (TN F)) : Sums F :=
  ⟨Arith.ofInt (lineWidth m (symsT ts)), Arith.ofInt (sumSt ts), Arith.ofInt 0⟩

section
variable {l : LineBreaker F} {m : Measure} (hs : Setup l m)
include hs

omit [Laws F] in
theorem lineWidth_nonneg (a : List Sym) : 0 ≤ lineWidth m a := by
  induction a with
  | nil => simp [lineWidth]
  | cons s a ih =>
    cases s with
    | part t => have := hs.text_nonneg t; simp only [lineWidth]; omega
    | gap => have := hs.space_nonneg; simp only [lineWidth]; omega
    | _ => simpa [lineWidth] using ih

variable {T : List (TN F)} (hT : Para l m T) (hw : lineWidth m (symsT T) ≤ Laws.bound F)
include hT

theorem zero_add_zero : Arith.add (Arith.ofInt 0 : F) (Arith.ofInt 0) = Arith.ofInt 0 := by
  have := Laws.add_int (F := F) 0 0 (small 0 (by decide)) (small 0 (by decide)) (small _ (by decide))
  simpa using this

/-- The width of a node as a symbol. -/
theorem width_node (u v : List (TN F)) (x : TN F) (h : T = u ++ x :: v) :
    lineWidth m (symsT [x]) = if x.node.kind = .penalty then 0 else x.w := by
  have hf := hT.facts u x v h
  have hm := hT.more u x v h
  rw [symsT_cons]
  cases hk : x.node.kind with
  | box =>
    obtain ⟨t, k, e, _⟩ := hf.box hk
    subst e
    simp [boxT, symsT, lineWidth]
  | glue =>
    rcases hf.glue hk with ⟨h1, h2⟩ | ⟨h1, h2⟩
    · rw [h1, h2]; simp [symsT, lineWidth]
    · rw [h1, h2]; simp [symsT, lineWidth]
  | penalty =>
    simp only [if_true]
    have h1 := (hf.pen hk).1
    have h2 := hf.nonbox (by rw [hk]; simp)
    cases ht : x.tag with
    | none => simp [symsT, lineWidth]
    | some s =>
      cases s with
      | part t => exact absurd ht (h2 t)
      | gap => exact absurd ht h1
      | _ => simp [symsT, lineWidth]

/-- The stretch of a part of a paragraph. -/
theorem sumSt_range (a b c : List (TN F)) (h : T = a ++ b ++ c) : |sumSt b| ≤ 20000 := by
  have pre : ∀ u v, T = u ++ v → 0 ≤ sumSt u ∧ sumSt u ≤ 20000 := by
    intro u v huv
    rcases List.eq_nil_or_concat u with rfl | ⟨u', x, rfl⟩
    · simp [sumSt]
    · rw [List.concat_eq_append] at huv ⊢
      have h1 := hT.more u' x v (by rw [huv]; simp)
      have h2 := h1.range
      have h3 := abs_le.mp h1.st
      rw [sumSt_append]
      have : sumSt [x] = x.st := by simp [sumSt]
      rw [this]
      refine ⟨?_, by omega⟩
      cases v with
      | nil =>
        have h4 := hT.facts u' x [] (by rw [huv]; simp)
        have h5 := h4.last rfl
        have h6 := (h4.pen (by rw [h5.2.1]; rfl)).2
        omega
      | cons y v =>
        have h4 := (hT.more (u' ++ [x]) y v (by rw [huv])).range
        rw [sumSt_append, this] at h4
        omega
  have h1 := pre a (b ++ c) (by rw [h]; simp)
  have h2 := pre (a ++ b) c h
  rw [sumSt_append] at h2
  rw [abs_le]
  constructor <;> omega

include hw

/-- The bounds on parts of a paragraph. -/
theorem part_bounds (a b c : List (TN F)) (h : T = a ++ b ++ c) :
    |lineWidth m (symsT b)| ≤ Laws.bound F ∧ |sumSt b| ≤ Laws.bound F := by
  have hn := lineWidth_nonneg hs (symsT b)
  have ha := lineWidth_nonneg hs (symsT a)
  have hc := lineWidth_nonneg hs (symsT c)
  constructor
  · rw [abs_of_nonneg hn]
    rw [h, symsT_append, symsT_append, lineWidth_append, lineWidth_append] at hw
    omega
  · exact small _ ((sumSt_range hs hT a b c h).trans (by decide))

theorem sumNode_sumsT (a b : List (TN F)) (x : TN F) (v : List (TN F)) (h : T = a ++ b ++ x :: v) :
    sumNode (sumsT m b) x.node = sumsT m (b ++ [x]) := by
  have hx := width_node hs hT (a ++ b) v x h
  have hf := hT.facts (a ++ b) x v h
  have hb := part_bounds hs hT hw a b (x :: v) h
  have hb' := part_bounds hs hT hw a (b ++ [x]) v (by rw [h]; simp)
  have hb1 := part_bounds hs hT hw (a ++ b) [x] v (by rw [h]; simp)
  have e1 : lineWidth m (symsT (b ++ [x])) = lineWidth m (symsT b) + lineWidth m (symsT [x]) := by
    rw [symsT_append, lineWidth_append]
  have e2 : sumSt (b ++ [x]) = sumSt b + x.st := by rw [sumSt_append]; simp [sumSt]
  have e3 : sumSt [x] = x.st := by simp [sumSt]
  rw [e1, e2] at hb'
  rw [e3] at hb1
  unfold sumNode sumsT
  rw [e1, e2]
  cases hk : x.node.kind with
  | box =>
    rw [hk] at hx
    simp only [reduceCtorEq, if_false] at hx
    obtain ⟨t, k, e, _⟩ := hf.box hk
    have hst : x.st = 0 := by rw [e]; rfl
    simp only [hf.coh]
    rw [← hx, Laws.add_int _ _ hb.1 hb1.1 hb'.1, hst]
    simp
  | glue =>
    rw [hk] at hx
    simp only [reduceCtorEq, if_false] at hx
    simp only [Sums.add, hf.coh]
    rw [← hx, Laws.add_int _ _ hb.1 hb1.1 hb'.1, Laws.add_int _ _ hb.2 hb1.2 hb'.2, zero_add_zero hs hT]
  | penalty =>
    rw [hk] at hx
    simp only [if_true] at hx
    rw [hx, (hf.pen hk).2]
    simp

theorem foldl_sumsT (a b0 b c : List (TN F)) (h : T = a ++ b0 ++ b ++ c) :
    (nds b).foldl sumNode (sumsT m b0) = sumsT m (b0 ++ b) := by
  induction b generalizing b0 with
  | nil => simp [nds]
  | cons x b ih =>
    have e : nds (x :: b) = x.node :: nds b := rfl
    rw [e, List.foldl_cons, sumNode_sumsT hs hT hw a b0 x (b ++ c) (by rw [h]; simp), ih (b0 ++ [x]) (by rw [h]; simp)]
    simp

/-- The sums when a node is reached. -/
theorem sumAt_sumsT (i : Nat) :
    sumAt (nds T) i = sumsT m ((T.take i).drop (findStartNode (nds T) 0)) := by
  unfold sumAt
  have : ((nds T).take i).drop (findStartNode (nds T) 0) = nds ((T.take i).drop (findStartNode (nds T) 0)) := by
    simp [nds]
  rw [this]
  have := foldl_sumsT hs hT hw ((T.take i).take (findStartNode (nds T) 0)) []
    ((T.take i).drop (findStartNode (nds T) 0)) (T.drop i) (by
      rw [List.append_nil, List.take_append_drop, List.take_append_drop])
  exact this

/-- The totals of a break point: the sums at the next box. -/
theorem sumFromLoop_sumsT (c0 b v : List (TN F)) (h : T = c0 ++ b ++ v) (a : List (TN F)) (y : TN F) (w : List (TN F))
    (hv : v = a ++ y :: w) (ha : ∀ x ∈ a, x.node.kind ≠ .box) (hy : y.node.kind = .box ∨ w = []) (first : Bool) :
    sumFromLoop first (nds v) (sumsT m b) = sumsT m (b ++ a) := by
  induction a generalizing b v first with
  | nil =>
    subst hv
    have e : nds ([] ++ y :: w) = y.node :: nds w := rfl
    rw [e, List.append_nil, sumFromLoop]
    rcases hy with hy | hy
    · simp [hy]
    · subst hy
      have hf := hT.facts (c0 ++ b) y [] (by rw [h]; simp)
      have hk : y.node.kind = .penalty := by rw [(hf.last rfl).2.1]; rfl
      simp only [hk, reduceCtorEq, if_false, false_or]
      split <;> simp [nds, sumFromLoop]
  | cons x a ih =>
    subst hv
    have e : nds (x :: a ++ y :: w) = x.node :: nds (a ++ y :: w) := rfl
    rw [e, sumFromLoop]
    have hTx : T = c0 ++ b ++ x :: (a ++ y :: w) := by rw [h]; rfl
    have hf := hT.facts (c0 ++ b) x _ hTx
    have hnode := sumNode_sumsT hs hT hw c0 b x _ hTx
    have hr := ih (b ++ [x]) (a ++ y :: w) (by rw [h]; simp) rfl (fun z hz => ha z (by simp [hz])) false
    have hkb := ha x (by simp)
    have hnf : x.node.isForcedBreak = false := by
      cases hc : x.node.isForcedBreak with
      | false => rfl
      | true => have := hf.forced.mp hc; simp at this
    rw [List.append_assoc] at hr
    unfold sumNode at hnode
    cases hk : x.node.kind with
    | box => exact absurd hk hkb
    | glue =>
      rw [hk] at hnode
      simp only [if_true]
      simp only at hnode
      rw [hnode]; exact hr
    | penalty =>
      rw [hk] at hnode
      simp only [reduceCtorEq, if_false, hnf, Bool.false_eq_true, false_and, or_self]
      simp only at hnode
      rw [hnode]; exact hr

end

/-! ## Feasible breaks -/

/-- The ratio, from integral values. -/
theorem adjustmentRatio_int (tw ts sw ss W : Int) (x : TN F)
    (hx : x.node.sums = ⟨Arith.ofInt x.w, Arith.ofInt x.st, Arith.ofInt 0⟩)
    (h1 : |tw| ≤ Laws.bound F) (h2 : |ts| ≤ Laws.bound F) (h3 : |sw| ≤ Laws.bound F) (h4 : |ss| ≤ Laws.bound F)
    (h5 : |sw - tw| ≤ Laws.bound F) (h6 : |ss - ts| ≤ Laws.bound F) (h7 : |W| ≤ Laws.bound F)
    (h8 : x.node.kind = .penalty → |x.w| ≤ Laws.bound F ∧ |sw - tw + x.w| ≤ Laws.bound F) (w : Int)
    (hw : w = sw - tw + if x.node.kind = .penalty then x.w else 0) (h9 : |W - w| ≤ Laws.bound F) :
    adjustmentRatio ⟨Arith.ofInt tw, Arith.ofInt ts, Arith.ofInt 0⟩ x.node
        ⟨Arith.ofInt sw, Arith.ofInt ss, Arith.ofInt 0⟩ (Arith.ofInt W : F) =
      if w < W then (if 0 < ss - ts then Arith.div (Arith.ofInt (W - w)) (Arith.ofInt (ss - ts)) else infinity)
      else if W < w then infinity else zero := by
  have hz : |(0 : Int)| ≤ Laws.bound F := small 0 (by decide)
  have hww : |w| ≤ Laws.bound F := by
    rw [hw]
    by_cases hk : x.node.kind = .penalty
    · simpa [hk] using (h8 hk).2
    · simpa [hk] using h5
  have hact : (if x.node.kind = .penalty then Arith.add (Arith.sub (Arith.ofInt sw : F) (Arith.ofInt tw)) x.node.sums.width
      else Arith.sub (Arith.ofInt sw : F) (Arith.ofInt tw)) = Arith.ofInt w := by
    rw [Laws.sub_int _ _ h3 h1 h5, hw]
    by_cases hk : x.node.kind = .penalty
    · simp only [hk, if_true, hx]
      exact Laws.add_int _ _ h5 (h8 hk).1 (h8 hk).2
    · simp [hk]
  unfold adjustmentRatio
  simp only
  rw [hact, Laws.lt_int _ _ hww h7, Laws.lt_int _ _ h7 hww, Laws.sub_int _ _ h4 h2 h6,
    Laws.sub_int 0 0 hz hz (by simpa using hz), Laws.sub_int _ _ h7 hww h9]
  rw [show (zero : F) = Arith.ofInt 0 from rfl, Laws.lt_int 0 _ hz h6, Laws.lt_int 0 _ hz (by simpa using hz)]
  simp

/-- What the proofs use of the tolerance. -/
structure Tol (o : Options F) : Prop where
  finite : Arith.lt o.tolerance infinity = true
  pos : Arith.le zero o.tolerance = true

/-- The ratio of a line is acceptable. -/
def okRatio (o : Options F) (d s : Int) : Prop :=
  Arith.le (Arith.div (Arith.ofInt d) (Arith.ofInt s : F)) o.tolerance = true

theorem feas_le {o : Options F} (ht : Arith.lt o.tolerance infinity = true) (c : Ctx F) (hc : c.l = o) (a : BreakPoint F)
    (w W st : Int) (hr : c.ratio a = if w < W then (if 0 < st then Arith.div (Arith.ofInt (W - w)) (Arith.ofInt st) else infinity)
      else if W < w then infinity else zero) (h : c.feas a = true) : w ≤ W := by
  by_contra hlt
  unfold Ctx.feas at h
  rw [hr, if_neg (by omega), if_pos (by omega), hc, Laws.le_of_lt _ _ ht] at h
  simp at h

theorem feas_iff {o : Options F} (ht : Tol o) (c : Ctx F) (hc : c.l = o) (a : BreakPoint F)
    (w W st : Int) (hst : st ≤ Laws.bound F) (hw : |W - w| ≤ Laws.bound F)
    (hr : c.ratio a = if w < W then (if 0 < st then Arith.div (Arith.ofInt (W - w)) (Arith.ofInt st) else infinity)
      else if W < w then infinity else zero) :
    c.feas a = true ↔ w = W ∨ (w < W ∧ 0 < st ∧ okRatio o (W - w) st) := by
  have hm : Arith.le (Arith.ofInt (-1) : F) (Arith.ofInt 0) = true := by
    rw [Laws.le_int _ _ (small _ (by decide)) (small _ (by decide))]; rfl
  have hinf : Arith.le (infinity : F) o.tolerance = false := Laws.le_of_lt _ _ ht.finite
  unfold Ctx.feas
  rw [hr, hc]
  by_cases h1 : w < W
  · rw [if_pos h1]
    by_cases h2 : 0 < st
    · rw [if_pos h2]
      have h3 : Arith.le (Arith.ofInt (-1) : F) (Arith.div (Arith.ofInt (W - w)) (Arith.ofInt st)) = true :=
        Laws.le_trans _ _ _ hm (Laws.div_pos _ _ (by omega) (by rw [abs_of_pos (by omega)] at hw; exact hw) h2 hst)
      rw [h3]
      simp only [Bool.true_and]
      constructor
      · intro h; exact Or.inr ⟨h1, h2, h⟩
      · rintro (h | ⟨_, _, h⟩)
        · omega
        · exact h
    · rw [if_neg h2, hinf]
      simp only [Bool.and_false, Bool.false_eq_true, false_iff]
      rintro (h | ⟨_, h, _⟩) <;> omega
  · rw [if_neg h1]
    by_cases h2 : W < w
    · rw [if_pos h2, hinf]
      simp only [Bool.and_false, Bool.false_eq_true, false_iff]
      rintro (h | ⟨h, _, _⟩) <;> omega
    · rw [if_neg h2]
      rw [show (zero : F) = Arith.ofInt 0 from rfl, hm]
      have := ht.pos
      rw [show (zero : F) = Arith.ofInt 0 from rfl] at this
      rw [this]
      simp only [Bool.and_self, true_iff]
      left; omega

/-- The start of the search is at most the first box. -/
theorem findStartNode_le_box (a : List (TN F)) (y : TN F) (w : List (TN F)) (k : Nat)
    (hy : y.node.kind = .box ∨ y.node.isForcedBreak = true) :
    findStartNode (nds (a ++ y :: w)) k ≤ k + a.length := by
  induction a generalizing k with
  | nil =>
    have e : nds ([] ++ y :: w) = y.node :: nds w := rfl
    rw [e, findStartNode]
    rcases hy with hy | hy
    · rw [hy]; simp
    · unfold Node.isForcedBreak at hy
      simp only [Bool.and_eq_true, decide_eq_true_eq] at hy
      rw [hy.1]; simp [hy.2]
  | cons x a ih =>
    have e : nds (x :: a ++ y :: w) = x.node :: nds (a ++ y :: w) := rfl
    rw [e, findStartNode]
    have h1 := ih k
    have h2 := ih (k + 1)
    simp only [List.length_cons]
    cases x.node.kind with
    | box => simp
    | penalty =>
      simp only
      split
      · omega
      · omega
    | glue => simp only; omega

omit [Arith F] [Laws F] in
theorem cut_end [Arith F] {l : LineBreaker F} {m : Measure} {b : Int} {x : TN F} {v : List (TN F)} (h : Cut l m b x v) :
    (if x.node.kind = .penalty then x.w else 0) = endWidth m (stopSym x v) := by
  cases h with
  | final h1 h2 h3 h4 h5 h6 => simp [stopSym, h1, h2, h3, h5, symsT, endWidth]
  | pen s h1 h2 h3 h4 h5 h6 => simp [stopSym, h1, h3, h5]
  | gap rest h1 h2 h3 h4 => simp [stopSym, h1, h2, h3, endWidth]
  | fin y h1 h2 h3 h4 h5 h6 h7 => simp [stopSym, h1, h2, h5, symsT, h3, endWidth]

end Verif.Proofs.LB
