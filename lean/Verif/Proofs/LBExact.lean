import Verif.Proofs.LBStruct

/-! # The exact result of the search -/

set_option linter.unusedSectionVars false
set_option linter.unusedSimpArgs false

namespace Verif.Proofs.LB
open Verif.Go Verif.Model Verif.Model.LB Verif.Spec Verif.Spec.LB

variable {F : Type} [Arith F]

/-- The demerits of a feasible break are neither negative nor out of range. -/
def TameOpts (l : LineBreaker F) : Prop :=
  ∀ (nodes : List (Node F)) (a : BreakPoint F) (node : Node F) (ratio : F) (d : F × Class),
    a.totalDemerits = zero → Arith.le (Arith.ofInt (-1)) ratio = true → Arith.le ratio l.tolerance = true →
    (node.kind = .glue ∨ node.kind = .penalty ∧ (node.penalty = minusInfinity ∨ ∃ s, node.penalty = penOf l s)) →
    demeritsAndClass l.toOptions nodes a node ratio = .ok d →
    Arith.lt d.1 Arith.maxFloat = true ∧ Arith.lt d.1 zero = false ∧
      Arith.lt (Arith.add d.1 l.demeritsFitness) zero = false

theorem chain_step {l : Options F} {nodes : List (Node F)} {ideal : F} {p q : Point F} {rest : List (Point F)}
    (h : Chain l nodes ideal (q :: p :: rest)) : Step l nodes ideal p q := by
  generalize hps : q :: p :: rest = ps at h
  cases h with
  | root => cases hps
  | cons h1 h2 =>
    simp only [List.cons.injEq] at hps
    obtain ⟨rfl, rfl, rfl⟩ := hps
    exact h2

/-- There is a box between two break points. -/
def NB (T : List (TN F)) (p q : Point F) : Prop :=
  ∃ c y d, T = c ++ y :: d ∧ y.node.kind = .box ∧ p.position ≤ c.length ∧ c.length < q.position

/-- There is a box between any two consecutive points. -/
def Tight (T : List (TN F)) : List (Point F) → Prop
  | q :: p :: rest => NB T p q ∧ Tight T (p :: rest)
  | _ => True

/-- There is a box before any break point that ends a first line. -/
def RootNB (l : LineBreaker F) (T : List (TN F)) (W : Int) : Prop :=
  ∀ q, Step l.toOptions (nds T) (Arith.ofInt W) (rootPoint : BreakPoint F).toPoint q →
    NB T (rootPoint : BreakPoint F).toPoint q

variable [Laws F]

section
variable {l : LineBreaker F} {m : Measure} (hs : Setup l m) {T : List (TN F)} (hT : Para l m T) {W : Int} (hW : Room m T W)
  (hstart : StartsWithPart (symsT T))


include hT hstart in
/-- The first box. -/
theorem first_box : ∃ c y w, T = c ++ y :: w ∧ y.node.kind = .box ∧ (∀ z ∈ c, z.node.kind ≠ .box) ∧ symsT c = [] := by
  obtain ⟨t, rest, ht⟩ := hstart
  obtain ⟨c, y, w, h2, h3, h4, _⟩ := List.filterMap_eq_cons_iff.mp ht
  refine ⟨c, y, w, h2, ?_, ?_, ?_⟩
  · by_contra hk
    exact (hT.facts c y w h2).nonbox hk t h4
  · intro z hz hk
    obtain ⟨a, b, e⟩ := List.append_of_mem hz
    obtain ⟨t', k, e', _⟩ := (hT.facts a z (b ++ y :: w) (by rw [h2, e]; simp)).box hk
    have := h3 z hz
    rw [e'] at this
    cases this
  · unfold symsT
    rw [List.filterMap_eq_nil_iff]
    exact h3

include hT hstart in
/-- A line ends after the first box. -/
theorem cut_after_first (u : List (TN F)) (x : TN F) (v : List (TN F)) (h : T = u ++ x :: v) (hcut : Cut l m (sumSt u) x v) :
    ∃ c y w, T = c ++ y :: w ∧ y.node.kind = .box ∧ c.length < u.length ∧ (∀ z ∈ c, z.node.kind ≠ .box) ∧ symsT c = [] := by
  obtain ⟨c, y, w, hc, hy, hcb, hcs⟩ := first_box hT hstart
  refine ⟨c, y, w, hc, hy, ?_, hcb, hcs⟩
  by_contra hlt
  have hxbox : x.node.kind ≠ .box := by
    cases hcut with
    | final _ _ h _ _ _ => rw [h]; simp
    | pen s _ _ h _ _ _ => rw [h]; simp
    | gap r _ _ _ h => rcases h with ⟨h, _⟩ | ⟨h, _⟩ <;> rw [h] <;> simp
    | fin y _ _ _ _ h _ _ => rw [h]; simp
  rcases Nat.lt_or_eq_of_le (Nat.le_of_not_lt hlt) with hlt | heq
  · -- the node is before the box
    have hcu : c = u ++ x :: (c.drop (u.length + 1)) := by
      have e1 : c.take u.length = u := by
        have : (c ++ y :: w).take u.length = u := by rw [← hc, h]; simp
        rwa [List.take_append_of_le_length (by omega)] at this
      have e2 : c[u.length]? = some x := by
        have : (c ++ y :: w)[u.length]? = some x := by rw [← hc, h]; simp
        rwa [List.getElem?_append_left hlt] at this
      have e3 : c[u.length] = x := by
        rw [List.getElem?_eq_getElem hlt] at e2
        exact Option.some.inj e2
      conv_lhs => rw [← List.take_append_drop u.length c, e1, List.drop_eq_getElem_cons hlt, e3]
    have hv : v = c.drop (u.length + 1) ++ y :: w := by
      have : u ++ x :: v = u ++ x :: (c.drop (u.length + 1) ++ y :: w) := by
        rw [← h, hc]
        conv_lhs => rw [hcu]
        simp
      simpa using this
    have hsx : x.tag = none ∧ symsT (c.drop (u.length + 1)) = [] := by
      rw [hcu, symsT_append, symsT_cons] at hcs
      simp only [List.append_eq_nil_iff] at hcs
      refine ⟨?_, hcs.2.2⟩
      cases ht : x.tag with
      | none => rfl
      | some s => rw [ht] at hcs; simp at hcs
    obtain ⟨t, k, ey, _⟩ := (hT.facts c y w hc).box hy
    cases hcut with
    | final h1 _ _ _ _ _ => rw [hv] at h1; simp at h1
    | pen s h1 _ _ _ _ _ => rw [hsx.1] at h1; cases h1
    | gap r _ h2 _ _ =>
      rw [hv, symsT_append, hsx.2, symsT_cons, ey] at h2
      simp [boxT] at h2
    | fin z _ h2 _ h4 _ _ _ =>
      rw [hv] at h2
      cases hd : c.drop (u.length + 1) with
      | nil =>
        rw [hd] at h2
        simp only [List.nil_append, List.cons.injEq] at h2
        rw [h2.1] at hy
        rw [hy] at h4; cases h4
      | cons a b => rw [hd] at h2; simp at h2
  · have : x = y := by
      have e1 : (c ++ y :: w)[u.length]? = some x := by rw [← hc, h]; simp
      rw [heq] at e1
      simpa using e1.symm
    rw [this] at hxbox
    exact hxbox hy

include hT in
/-- No box between: the next box is the same. -/
theorem totals_eq (p q : Point F) (hp : TotAt m T p) (hq : TotAt m T q) (hlt : p.position ≤ q.position)
    (hq2 : q.position < T.length) (hnb : ¬ NB T p q) : p.totals = q.totals := by
  have hne : T.drop q.position ≠ [] := by
    intro e; have := congrArg List.length e; simp at this; omega
  have htl : (T.take q.position).length = q.position := by simp; omega
  obtain ⟨a, y, w, g1, g2, g3, g4, g5⟩ := skip_split hT.facts (T.take q.position) (T.drop q.position) (by simp) hne
  have hc : T = (T.take q.position ++ a) ++ y :: w := by rw [List.append_assoc, ← g1]; simp
  rw [hp.2 _ y w hc (by simp [htl]; omega) ?_ g4, hq.2 _ y w hc (by simp [htl]) ?_ g4]
  · intro z hz
    rw [List.drop_append_of_le_length (by omega), List.drop_of_length_le (by omega), List.nil_append] at hz
    exact g2 z hz
  · intro z hz hk
    rw [List.drop_append_of_le_length (by omega), List.mem_append] at hz
    rcases hz with hz | hz
    · obtain ⟨i, hi⟩ := List.getElem?_of_mem hz
      rw [List.getElem?_drop] at hi
      apply hnb
      have hlen : p.position + i < q.position := by
        have := (List.getElem?_eq_some_iff.mp hi).1
        omega
      have hi2 : T[p.position + i]? = some z := by
        rw [List.getElem?_take] at hi
        simpa [hlen] using hi
      have hi3 := List.getElem?_eq_some_iff.mp hi2
      obtain ⟨hl, he⟩ := hi3
      refine ⟨T.take (p.position + i), z, T.drop (p.position + i + 1), ?_, hk, ?_, ?_⟩
      · rw [← he, List.getElem_cons_drop]; simp
      · simp; omega
      · simp; omega
    · exact g2 z hz hk

include hs hT hW in
/-- A ratio is never negative. -/
theorem ratio_pos {o : Options F} (u : List (TN F)) (x : TN F) (v : List (TN F)) (h : T = u ++ x :: v)
    (hst : findStartNode (nds T) 0 ≤ u.length) (hcut : Cut l m (sumSt u) x v) (a : BreakPoint F)
    (ha : a.totals = Sums.zero ∨ TotAt m T a.toPoint) (hpos : a.position < T.length) :
    Arith.le (Arith.ofInt 0) ((ctxAt o (nds T) (Arith.ofInt W) u.length x.node).ratio a) = true := by
  obtain ⟨s, hs0⟩ : ∃ s, s = findStartNode (nds T) 0 := ⟨_, rfl⟩
  have hwT := Room.width hs hW
  have hm : Arith.le (Arith.ofInt 0 : F) (Arith.ofInt 0) = true := by
    rw [Laws.le_int _ _ (small _ (by decide)) (small _ (by decide))]; rfl
  have hsum : (ctxAt o (nds T) (Arith.ofInt W) u.length x.node).sum = sumsT m (u.drop s) := by
    simp only [ctxAt]
    rw [sumAt_sumsT hs hT hwT, ← hs0]
    congr 1
    rw [h, List.take_left]
  -- the totals
  obtain ⟨c, hc⟩ : ∃ c : List (TN F), a.totals = sumsT m c ∧ ∃ a' b', T = a' ++ c ++ b' := by
    rcases ha with ha | ha
    · exact ⟨[], by rw [ha]; rfl, [], T, by simp⟩
    · have hne : T.drop a.position ≠ [] := by
        intro e; have := congrArg List.length e; simp at this; omega
      obtain ⟨a', y, w, g1, g2, g3, g4, g5⟩ := skip_split hT.facts (T.take a.position) (T.drop a.position) (by simp) hne
      have htl : (T.take a.position).length = a.position := by simp; omega
      have hc : T = (T.take a.position ++ a') ++ y :: w := by rw [List.append_assoc, ← g1]; simp
      refine ⟨(T.take a.position ++ a').drop s, ?_, (T.take a.position ++ a').take s, y :: w, ?_⟩
      · rw [hs0]
        refine ha.2 _ y w hc (by simp [htl]) ?_ g4
        intro z hz
        rw [List.drop_append_of_le_length (by omega), List.drop_of_length_le (by omega), List.nil_append] at hz
        exact g2 z hz
      · rw [List.take_append_drop]; exact hc
  obtain ⟨hct, a', b', hab⟩ := hc
  have b1 := part_bounds hs hT hwT a' c b' hab
  have b2 := part_bounds hs hT hwT (u.take s) (u.drop s) (x :: v) (by rw [List.take_append_drop, h])
  have n1 := lineWidth_nonneg hs (symsT c)
  have n2 := lineWidth_nonneg hs (symsT (u.drop s))
  have l1 : lineWidth m (symsT c) ≤ lineWidth m (symsT T) := by
    have := congrArg (fun t => lineWidth m (symsT t)) hab
    simp only [symsT_append, lineWidth_append] at this
    have := lineWidth_nonneg hs (symsT a')
    have := lineWidth_nonneg hs (symsT b')
    omega
  have l2 : lineWidth m (symsT (u.drop s)) ≤ lineWidth m (symsT T) := by
    have e : T = u.take s ++ u.drop s ++ x :: v := by rw [List.take_append_drop, h]
    have := congrArg (fun t => lineWidth m (symsT t)) e
    simp only [symsT_append, lineWidth_append] at this
    have := lineWidth_nonneg hs (symsT (u.take s))
    have := lineWidth_nonneg hs (symsT (x :: v))
    omega
  have s1 : ∀ d a b, T = a ++ d ++ b → |sumSt d| ≤ 20000 := fun d a b e => sumSt_range hs hT a d b e
  have hf := hT.facts u x v h
  have hend := cut_end hcut
  have hend0 : 0 ≤ endWidth m (stopSym x v) ∧ endWidth m (stopSym x v) ≤ m.hyphen := by
    have := hs.hyphen_nonneg
    unfold endWidth
    split
    · split <;> omega
    · omega
  have hB := hW.bound
  have hWn := abs_nonneg W
  have hxw : x.node.kind = .penalty → x.w = endWidth m (stopSym x v) := by
    intro hk; rw [← hend, if_pos hk]
  have t1 := abs_le.mp (s1 c a' b' hab)
  have t2 := abs_le.mp (s1 (u.drop s) (u.take s) (x :: v) (by rw [List.take_append_drop, h]))
  have hbl := Laws.bound_large (F := F)
  obtain ⟨w, hw⟩ : ∃ w, w = lineWidth m (symsT (u.drop s)) - lineWidth m (symsT c) + endWidth m (stopSym x v) := ⟨_, rfl⟩
  have h9 : |W - w| ≤ Laws.bound F := by
    rw [abs_le]
    rcases abs_cases W with ⟨e, _⟩ | ⟨e, _⟩ <;> rw [e] at hB <;> constructor <;> omega
  have h6 : |sumSt (u.drop s) - sumSt c| ≤ Laws.bound F := by rw [abs_le]; constructor <;> omega
  have hr := adjustmentRatio_int (F := F) (lineWidth m (symsT c)) (sumSt c) (lineWidth m (symsT (u.drop s)))
    (sumSt (u.drop s)) W x hf.coh b1.1 b1.2 b2.1 b2.2 (by rw [abs_le]; constructor <;> omega) h6 (by omega) (by
      intro hk
      rw [hxw hk, abs_le, abs_le]
      refine ⟨⟨?_, ?_⟩, ?_, ?_⟩ <;> omega) w (by rw [hw, hend]) h9
  unfold Ctx.ratio
  rw [hsum, hct]
  show Arith.le _ (adjustmentRatio _ x.node _ (Arith.ofInt W)) = true
  unfold sumsT
  rw [hr]
  have hinf : Arith.le (Arith.ofInt 0 : F) infinity = true := by
    unfold infinity
    rw [Laws.le_int _ _ (small _ (by decide)) (small _ (by decide))]; rfl
  split
  · split
    · rename_i k1 k2
      refine Laws.div_pos _ _ (by omega) ?_ k2 ?_
      · rw [abs_of_pos (by omega)] at h9; exact h9
      · rw [abs_of_pos k2] at h6; exact h6
    · exact hinf
  · split
    · exact hinf
    · exact hm

include hs hT hW in
/-- A ratio is never less than -1. -/
theorem ratio_ge {o : Options F} (u : List (TN F)) (x : TN F) (v : List (TN F)) (h : T = u ++ x :: v)
    (hst : findStartNode (nds T) 0 ≤ u.length) (hcut : Cut l m (sumSt u) x v) (a : BreakPoint F)
    (ha : a.totals = Sums.zero ∨ TotAt m T a.toPoint) (hpos : a.position < T.length) :
    Arith.le (Arith.ofInt (-1)) ((ctxAt o (nds T) (Arith.ofInt W) u.length x.node).ratio a) = true := by
  refine Laws.le_trans _ _ _ ?_ (ratio_pos hs hT hW u x v h hst hcut a ha hpos)
  rw [Laws.le_int _ _ (small _ (by decide)) (small _ (by decide))]; rfl

/-- A line may be set, from the sums of its nodes; `c` ends where its text starts. -/
def FeasAt (l : LineBreaker F) (m : Measure) (T : List (TN F)) (W : Int) (first : Bool) (c d : List (TN F)) (x : TN F)
    (v : List (TN F)) : Prop :=
  let w := lineWidth m (symsT d) + endWidth m (stopSym x v) +
    if first then lineWidth m (symsT (c.drop (findStartNode (nds T) 0))) else 0
  let st := sumSt d + if first then sumSt (c.drop (findStartNode (nds T) 0)) else 0
  w = W ∨ (w < W ∧ 0 < st ∧ okRatio l.toOptions (W - w) st)

/-- Places reached by lines that may be set. -/
inductive Reach (l : LineBreaker F) (m : Measure) (T : List (TN F)) (W : Int) : Bool → Nat → Prop where
  | root : Reach l m T W true 0
  | step {first : Bool} {pos : Nat} (c d : List (TN F)) (x : TN F) (v : List (TN F)) : Reach l m T W first pos →
      T = c ++ d ++ x :: v → pos ≤ c.length → (∀ z ∈ c.drop pos, z.node.kind ≠ .box) →
      (∃ y d', d = y :: d' ∧ y.node.kind = .box) → LegalAt ((c ++ d).getLast?.map TN.node) x.node →
      FeasAt l m T W first c d x v → Reach l m T W false (c ++ d).length

/-- The ratio of a line, from the sums of its nodes. -/
def ratioAt (m : Measure) (T : List (TN F)) (W : Int) (first : Bool) (c d : List (TN F)) (x : TN F) (v : List (TN F)) : F :=
  let w := lineWidth m (symsT d) + endWidth m (stopSym x v) +
    if first then lineWidth m (symsT (c.drop (findStartNode (nds T) 0))) else 0
  let st := sumSt d + if first then sumSt (c.drop (findStartNode (nds T) 0)) else 0
  if w < W then (if 0 < st then Arith.div (Arith.ofInt (W - w)) (Arith.ofInt st) else infinity)
  else if W < w then infinity else zero

/-- A line starts at `p` and ends at `q`: no line of the same class that ends there starts earlier. -/
def EarlyAt (l : LineBreaker F) (m : Measure) (T : List (TN F)) (W : Int) (p q : Point F) : Prop :=
  ∀ first pos c d x v, Reach l m T W first pos → T = c ++ d ++ x :: v → (c ++ d).length = q.position → pos ≤ c.length →
    (∀ z ∈ c.drop pos, z.node.kind ≠ .box) → (∃ y d', d = y :: d' ∧ y.node.kind = .box) →
    FeasAt l m T W first c d x v → newFitnessClass (ratioAt m T W first c d x v : F) = q.fitness → p.position ≤ pos

/-- Each line of a chain starts as early as it can. -/
def EarlyAll (l : LineBreaker F) (m : Measure) (T : List (TN F)) (W : Int) : List (Point F) → Prop
  | q :: p :: rest => EarlyAt l m T W p q ∧ EarlyAll l m T W (p :: rest)
  | _ => True

/-- A break point at a place, with the totals of this place. -/
def Rep (m : Measure) (T : List (TN F)) (pos : Nat) (a : BreakPoint F) : Prop :=
  a.position = pos ∧ ∀ c y w, T = c ++ y :: w → pos ≤ c.length → (∀ z ∈ c.drop pos, z.node.kind ≠ .box) →
    (y.node.kind = .box ∨ w = []) → a.totals = sumsT m (c.drop (findStartNode (nds T) 0))

/-- The active break points when the node at `n` is reached. -/
structure Inv (l : LineBreaker F) (m : Measure) (T : List (TN F)) (W : Int) (n : Nat) (act : List (BreakPoint F)) : Prop where
  ok : ActiveOk l.toOptions (nds T) (Arith.ofInt W) n act
  root : rootPoint ∈ act
  first : act.head? = some rootPoint
  order : ∀ (i : Nat) a, act[i]? = some a → a.previous = [] ∨
    ∃ (j : Nat) (p : BreakPoint F), j < i ∧ act[j]? = some p ∧ a.previous = p.toPoint :: p.previous
  tight : ∀ a ∈ act, Tight T a.previous
  reach : ∀ pos, Reach l m T W false pos → pos < n → ∃ a ∈ act, Rep m T pos a
  sorted : act.Pairwise (fun a b => a.position ≤ b.position)
  early : ∀ a ∈ act, EarlyAll l m T W (a.toPoint :: a.previous)

include hs hT hW in
theorem chain_tot {a : BreakPoint F} {ideal : F}
    (h : Chain l.toOptions (nds T) ideal (a.toPoint :: a.previous)) :
    a = rootPoint ∨ (TotAt m T a.toPoint ∧ a.previous ≠ []) := by
  cases a with
  | mk p pr =>
    simp only at h
    generalize hps : p :: pr = ps at h
    cases h with
    | root =>
      left
      simp only [List.cons.injEq] at hps
      obtain ⟨rfl, rfl⟩ := hps
      rfl
    | cons h1 h2 =>
      right
      simp only [List.cons.injEq] at hps
      obtain ⟨rfl, rfl⟩ := hps
      exact ⟨step_tot hs hT hW h2, by simp⟩

include hT hstart in
/-- When the text starts with a part of a word, the first line has a box. -/
theorem rootNB_of_start : RootNB l T W := by
  intro q hq
  obtain ⟨u2, x2, v2, j1, j2, j3, j4, _⟩ := step_cut hT.facts hq
  obtain ⟨c2, y2, w2, i1, i2, i3, _⟩ := cut_after_first hT hstart u2 x2 v2 j1 j4
  exact ⟨c2, y2, w2, i1, i2, Nat.zero_le _, by omega⟩

variable (hroot : RootNB l T W) (ht : Tol l.toOptions) (htame : TameOpts l) (hpos : 0 < W) (rt : Runtime)
  (hrt : ∀ (i n : Nat) (c : Class), c ∈ rt.order i n)
include hs hT hW hroot ht htame hpos hrt

/-- **One step of the search**, exactly. -/
theorem step_new (u : List (TN F)) (x : TN F) (v : List (TN F)) (h : T = u ++ x :: v)
    (hst : findStartNode (nds T) 0 ≤ u.length) (hl : LegalAt (u.getLast?.map TN.node) x.node)
    (act : List (BreakPoint F)) (hi : Inv l m T W u.length act) :
    ∃ new, stepRes rt (ctxAt l.toOptions (nds T) (Arith.ofInt W) u.length x.node) act =
        .ok ((if v = [] then [] else act) ++ new) ∧
      (∀ b ∈ new, b.position = u.length ∧ Chain l.toOptions (nds T) (Arith.ofInt W) (b.toPoint :: b.previous) ∧
        Tight T b.previous ∧ (v = [] → Tight T (b.toPoint :: b.previous)) ∧
        EarlyAll l m T W (b.toPoint :: b.previous) ∧ ∃ q ∈ act, b.previous = q.toPoint :: q.previous) ∧
      (Reach l m T W false u.length → ∃ b ∈ new, Rep m T u.length b) ∧
      ((ctxAt l.toOptions (nds T) (Arith.ofInt W) u.length x.node).feas rootPoint = true →
        (∀ a ∈ act, (ctxAt l.toOptions (nds T) (Arith.ofInt W) u.length x.node).feas a = true →
          (ctxAt l.toOptions (nds T) (Arith.ofInt W) u.length x.node).cls a = .one) →
        ∀ b ∈ new, b.previous = [rootPoint.toPoint]) ∧
      new = (rt.order u.length 0).filterMap (fun c =>
        ((ctxAt l.toOptions (nds T) (Arith.ofInt W) u.length x.node).pick act c).map
          (newBreak u.length c (ctxAt l.toOptions (nds T) (Arith.ofInt W) u.length x.node).tot)) := by
  have hf := hT.facts u x v h
  have hcut := hf.legal hl
  have hun : (nds T) = nds u ++ x.node :: nds v := by rw [h]; simp [nds]
  have hul : (nds u).length = u.length := by simp [nds]
  have hTl : T.length = u.length + (v.length + 1) := by rw [h]; simp
  have hgl : (nds u).getLast? = u.getLast?.map TN.node := by
    unfold nds; exact List.getLast?_map
  obtain ⟨ctx, hctx⟩ : ∃ ctx, ctx = ctxAt l.toOptions (nds T) (Arith.ofInt W) u.length x.node := ⟨_, rfl⟩
  have hune : 0 < u.length := by
    by_contra h0
    have hu0 : u = [] := List.eq_nil_of_length_eq_zero (by omega)
    subst hu0
    rcases hl with ⟨_, h2⟩ | ⟨h1, h2⟩
    · simp at h2
    · rw [(hT.head x (by rw [h]; rfl) h1).2] at h2
      simp [infinity, eq_small (F := F) 10000 10000 (by decide) (by decide)] at h2
  have hpl : ∀ a ∈ act, a.position < T.length ∧ a.position < u.length := by
    intro a ha
    have := (hi.ok a ha).2
    constructor <;> omega
  have hzero : ∀ a ∈ act, a.totalDemerits = zero := fun a ha => (chain_zero (hi.ok a ha).1 a.toPoint (by simp)).1
  have htot : ∀ a ∈ act, a.totals = Sums.zero ∨ TotAt m T a.toPoint := by
    intro a ha
    rcases chain_tot hs hT hW (hi.ok a ha).1 with e | e
    · left; rw [e]; rfl
    · exact Or.inr e.1
  -- demerits are tame
  have htm : ∀ a ∈ act, ctx.feas a = true → ctx.Tame a := by
    intro a ha hfe
    have hp := demeritsAndClass_eq ctx a (by rw [hctx]; simp only [ctxAt, nds, List.length_map]; exact (hpl a ha).1)
    unfold Ctx.feas at hfe
    simp only [Bool.and_eq_true] at hfe
    have hl' : ctx.l = l.toOptions := by rw [hctx]; rfl
    have hn' : ctx.node = x.node := by rw [hctx]; rfl
    rw [hl'] at hp hfe
    have := htame _ a _ _ _ (hzero a ha) hfe.1 hfe.2 (by
      rw [hn']
      cases hcut with
      | final _ _ h1 h2 _ _ => exact Or.inr ⟨h1, Or.inl h2⟩
      | pen s _ _ h1 h2 _ _ => exact Or.inr ⟨h1, Or.inr ⟨s, h2⟩⟩
      | gap r _ _ _ h => 
        rcases h with ⟨h, _⟩ | ⟨h, h2, _⟩
        · exact Or.inl h
        · exact Or.inr ⟨h, Or.inr ⟨.gap, h2⟩⟩
      | fin y _ _ _ _ h _ _ => exact Or.inl h) hp
    unfold Ctx.Tame
    rw [hl']
    exact this
  have hres := mainLoop_tame rt ctx act (by
    intro a ha; rw [hctx]; simp only [ctxAt, nds, List.length_map]; exact (hpl a ha).1) hzero htm
  have hane : act ≠ [] := by
    intro e; have := hi.root; rw [e] at this; simp at this
  rw [if_neg hane] at hres
  have hkeep : act.filter ctx.keep = if v = [] then [] else act := by
    by_cases hv : v = []
    · rw [if_pos hv, List.filter_eq_nil_iff]
      intro a _
      simp [Ctx.keep, hctx, ctxAt, hf.forced.mpr hv]
    · rw [if_neg hv, List.filter_eq_self]
      intro a ha
      have hr := ratio_ge hs hT hW (o := l.toOptions) u x v h hst hcut a (htot a ha) (hpl a ha).1
      rw [← hctx] at hr
      have hnf : x.node.isForcedBreak = false := by
        cases hc : x.node.isForcedBreak with
        | false => rfl
        | true => exact absurd (hf.forced.mp hc) hv
      have hnode : ctx.node = x.node := by rw [hctx]; rfl
      unfold Ctx.keep
      rw [hnode, hnf]
      cases hc : Arith.lt (ctx.ratio a) (Arith.ofInt (-1)) with
      | false => rfl
      | true =>
        have := Laws.le_of_lt _ _ hc
        rw [hr] at this; cases this
  rw [hkeep] at hres
  -- a break point for each place that is reached
  have hrep : ∀ (first : Bool) (pos : Nat) (c d : List (TN F)) (x' : TN F) (v' : List (TN F)), Reach l m T W first pos →
      T = c ++ d ++ x' :: v' → u.length = (c ++ d).length → pos ≤ c.length → (∀ z ∈ c.drop pos, z.node.kind ≠ .box) →
      (∃ y d', d = y :: d' ∧ y.node.kind = .box) → FeasAt l m T W first c d x' v' →
      ∃ a ∈ act, a.position = pos ∧ ctx.feas a = true ∧ ctx.cls a = newFitnessClass (ratioAt m T W first c d x' v') := by
    intro first pos c d x' v' r1 r2 hn r3 r4 r5 r7
    have heq : u = c ++ d ∧ x = x' ∧ v = v' := by
      have := List.append_inj (h.symm.trans r2) hn
      refine ⟨this.1, ?_, ?_⟩
      · simpa using (List.cons.inj this.2).1
      · simpa using (List.cons.inj this.2).2
    obtain ⟨rfl, rfl, rfl⟩ := heq
    obtain ⟨y, d', rfl, hy⟩ := r5
    have hTc : T = c ++ y :: (d' ++ x :: v) := by rw [r2]; simp
    have hsc : findStartNode (nds T) 0 ≤ c.length := by
      have := findStartNode_le_box c y (d' ++ x :: v) 0 (Or.inl hy)
      rw [← hTc] at this; omega
    obtain ⟨a, ham, hap, hat⟩ : ∃ a ∈ act, a.position = pos ∧
        a.totals = if first then Sums.zero else sumsT m (c.drop (findStartNode (nds T) 0)) := by
      cases first with
      | true =>
        refine ⟨rootPoint, hi.root, ?_, rfl⟩
        clear r3 r4
        generalize hff : true = f at r1
        cases r1 with
        | root => rfl
        | step => cases hff
      | false =>
        obtain ⟨a, h1, h2⟩ := hi.reach pos r1 (by simp; omega)
        exact ⟨a, h1, h2.1, h2.2 c y _ hTc r3 r4 (Or.inl hy)⟩
    have hr := ratio_at hs hT hW (o := l.toOptions) c (y :: d') x v r2 hsc hcut first a.toPoint a.previous hat _ _ rfl rfl
    rw [← hctx] at hr
    refine ⟨a, ham, hap, (feas_iff ht ctx (by rw [hctx]; rfl) a _ W _ ?_ hr.2.2 hr.1).mpr r7, ?_⟩
    · exact (abs_le.mp hr.2.1).2
    · unfold Ctx.cls
      rw [hr.1]
      rfl
  refine ⟨_, by unfold stepRes; rw [← hctx]; exact hres, ?_, ?_, ?_, by rw [hctx]; rfl⟩
  · -- new break points
    intro b hb
    rw [List.mem_filterMap] at hb
    obtain ⟨k, _, hb⟩ := hb
    cases hpk : ctx.pick act k with
    | none => rw [hpk] at hb; cases hb
    | some q =>
      rw [hpk] at hb
      simp only [Option.map_some, Option.some.injEq] at hb
      have hidx : ctx.index = u.length := by rw [hctx]; rfl
      unfold Ctx.pick at hpk
      obtain ⟨hq1, as, bs, hq2, hq3⟩ := List.find?_eq_some_iff_append.mp hpk
      simp only [Bool.and_eq_true, decide_eq_true_eq] at hq1
      have hqm : q ∈ act := by rw [hq2]; simp
      obtain ⟨gch, _⟩ := hi.ok q hqm
      have hstep : Step l.toOptions (nds T) (Arith.ofInt W) q.toPoint b.toPoint := by
        refine ⟨nds u, x.node, nds v, hun, by rw [hgl]; exact hl, by rw [hul]; exact hst, by rw [hul]; exact (hpl q hqm).2, ?_, ?_⟩
        · rw [hul, ← hctx]; exact hq1.1
        · rw [hul, ← hctx, ← hb, ← hq1.2, hidx]; rfl
      have hprev : b.previous = q.toPoint :: q.previous := by rw [← hb]; rfl
      have hrootnb : q = rootPoint → NB T q.toPoint b.toPoint := by
        intro e
        rw [e] at hstep ⊢
        exact hroot _ hstep
      have htight : Tight T b.previous := by
        rw [hprev]
        cases hqp : q.previous with
        | nil => trivial
        | cons p0 rest0 =>
          refine ⟨?_, by rw [← hqp]; exact hi.tight q hqm⟩
          rcases hi.order as.length q (by rw [hq2]; simp) with e | ⟨j, pE, hj, hpE, e⟩
          · rw [hqp] at e; cases e
          · rw [hqp] at e
            simp only [List.cons.injEq] at e
            obtain ⟨rfl, rfl⟩ := e
            by_contra hnb
            have hpm : pE ∈ as := by
              rw [hq2, List.getElem?_append_left hj] at hpE
              exact List.mem_of_getElem? hpE
            have hpa : pE ∈ act := by rw [hq2]; simp [hpm]
            rcases chain_tot hs hT hW gch with e | ⟨e, _⟩
            · rw [e] at hqp; cases hqp
            · have hplt : pE.position < q.position ∧ q.position < T.length := by
                refine ⟨?_, (hpl q hqm).1⟩
                rw [hqp] at gch
                obtain ⟨_, _, _, _, _, _, k4, _, k6⟩ := chain_step gch
                have : q.position = _ := congrArg Point.position k6
                rw [this]; exact k4
              rcases chain_tot hs hT hW (hi.ok pE hpa).1 with e2 | ⟨e2, _⟩
              · -- the predecessor is the root
                apply hnb
                have hqs : Step l.toOptions (nds T) (Arith.ofInt W) pE.toPoint q.toPoint := by
                  rw [hqp] at gch
                  exact chain_step gch
                rw [e2] at hqs ⊢
                exact hroot _ hqs
              · have heq := totals_eq hT pE.toPoint q.toPoint e2 e (by omega) hplt.2 hnb
                have hrat : ctx.ratio pE = ctx.ratio q := by unfold Ctx.ratio; rw [heq]
                have := hq3 pE hpm
                unfold Ctx.feas Ctx.cls at this hq1
                rw [hrat, hq1.1, hq1.2] at this
                simp at this
      refine ⟨by rw [← hb, newBreak, hidx], by rw [hprev]; exact Chain.cons gch hstep, htight, ?_, ?_, q, hqm, hprev⟩
      rotate_left
      · rw [hprev]
        refine ⟨?_, hi.early q hqm⟩
        intro first pos c d x' v' r1 r2 hn r3 r4 r5 r7 r8
        have hbp : b.toPoint.position = u.length := by rw [← hb, newBreak, hidx]
        have hbf : b.toPoint.fitness = k := by rw [← hb]; rfl
        obtain ⟨a, ham, hap, haf, hac⟩ := hrep first pos c d x' v' r1 r2 (by rw [hn, hbp]) r3 r4 r5 r7
        rw [r8, hbf] at hac
        have hsort := hi.sorted
        rw [hq2, List.pairwise_append] at hsort
        rw [hq2, List.mem_append] at ham
        rcases ham with ham | ham
        · have := hq3 a ham
          simp [haf, hac] at this
        · rw [← hap]
          rw [List.mem_cons] at ham
          rcases ham with rfl | ham
          · exact Nat.le_refl _
          · exact (List.pairwise_cons.mp hsort.2.1).1 a ham
      intro hv
      rw [hprev]
      refine ⟨?_, by rw [← hprev]; exact htight⟩
      rcases chain_tot hs hT hW gch with e | ⟨e, _⟩
      · exact hrootnb e
      · by_contra hnb
        subst hv
        have hnobox : ∀ z ∈ u.drop q.position, z.node.kind ≠ .box := by
          intro z hz hk
          apply hnb
          obtain ⟨i, hi'⟩ := List.getElem?_of_mem hz
          rw [List.getElem?_drop] at hi'
          have hlu := (List.getElem?_eq_some_iff.mp hi').1
          refine ⟨u.take (q.position + i), z, u.drop (q.position + i + 1) ++ [x], ?_, hk, by simp; omega, ?_⟩
          · have he := (List.getElem?_eq_some_iff.mp hi').2
            have : u = u.take (q.position + i) ++ z :: u.drop (q.position + i + 1) := by
              rw [← he, List.getElem_cons_drop]; simp
            rw [h]
            conv_lhs => rw [this]
            simp
          · rw [← hb, newBreak, hidx]; simp; omega
        have hqt := e.2 u x [] h (Nat.le_of_lt (hpl q hqm).2) hnobox (Or.inr rfl)
        have hr := ratio_at hs hT hW (o := l.toOptions) u [] x [] (by simpa using h) hst (by simpa using hcut) false
          q.toPoint q.previous (by simpa using hqt) _ _ rfl rfl
        have hx0 : stopSym x [] = none := by
          unfold stopSym
          rw [(hf.last rfl).1]; rfl
        have hri := hr.1
        simp only [List.append_nil] at hri
        rw [← hctx] at hri
        have := (feas_iff ht ctx (by rw [hctx]; rfl) q _ W _ (by simp [sumSt]; exact le_trans (by decide) (Laws.bound_large (F := F))) hr.2.2 hri).mp hq1.1
        simp [symsT, lineWidth, hx0, endWidth, sumSt] at this
        omega
  · -- places that are reached
    intro hre
    generalize hff : false = f at hre
    generalize hn : u.length = n at hre
    cases hre with
    | root => cases hff
    | @step first pos c d x' v' r1 r2 r3 r4 r5 r6 r7 =>
      obtain ⟨a, ham, _, hfe, _⟩ := hrep first pos c d x' v' r1 r2 hn r3 r4 r5 r7
      have heq : u = c ++ d ∧ x = x' ∧ v = v' := by
        have := List.append_inj (h.symm.trans r2) hn
        refine ⟨this.1, ?_, ?_⟩
        · simpa using (List.cons.inj this.2).1
        · simpa using (List.cons.inj this.2).2
      obtain ⟨rfl, rfl, rfl⟩ := heq
      obtain ⟨y, d', rfl, hy⟩ := r5
      have hsome : (ctx.pick act (ctx.cls a)).isSome = true := by
        unfold Ctx.pick
        rw [List.find?_isSome]
        exact ⟨a, ham, by simp [hfe]⟩
      obtain ⟨q, hq⟩ := Option.isSome_iff_exists.mp hsome
      have hq' := List.find?_some hq
      simp only [Bool.and_eq_true, decide_eq_true_eq] at hq'
      have hqm : q ∈ act := List.mem_of_find?_eq_some hq
      refine ⟨newBreak ctx.index (ctx.cls a) ctx.tot q, ?_, ?_⟩
      · rw [List.mem_filterMap]
        exact ⟨ctx.cls a, hrt _ _ _, by rw [hq]; rfl⟩
      · have hstep : Step l.toOptions (nds T) (Arith.ofInt W) q.toPoint
            (newBreak ctx.index (ctx.cls a) ctx.tot q).toPoint := by
          refine ⟨nds (c ++ y :: d'), x.node, nds v, hun, by rw [hgl]; exact hl, by rw [hul]; exact hst,
            by rw [hul]; exact (hpl q hqm).2, ?_, ?_⟩
          · rw [hul, ← hctx]; exact hq'.1
          · have hidx : ctx.index = (c ++ y :: d').length := by rw [hctx]; rfl
            rw [hul, ← hctx, ← hq'.2, hidx]; rfl
        have := (step_tot hs hT hW hstep).2
        have hidx : (newBreak ctx.index (ctx.cls a) ctx.tot q).toPoint.position = (c ++ y :: d').length := by
          rw [hctx]; rfl
        rw [hidx] at this
        exact ⟨hidx, this⟩
  · -- the first active break point is the root
    rw [← hctx]
    intro hroot hone b hb
    rw [List.mem_filterMap] at hb
    obtain ⟨k, _, hb⟩ := hb
    cases hpk : ctx.pick act k with
    | none => rw [hpk] at hb; cases hb
    | some q =>
      rw [hpk] at hb
      simp only [Option.map_some, Option.some.injEq] at hb
      have hq' := List.find?_some hpk
      simp only [Bool.and_eq_true, decide_eq_true_eq] at hq'
      have hqm : q ∈ act := List.mem_of_find?_eq_some hpk
      have hk : k = .one := by rw [← hq'.2]; exact hone q hqm hq'.1
      have hq : q = rootPoint := by
        have hfirst := hi.first
        cases act with
        | nil => cases hfirst
        | cons a rest =>
          simp only [List.head?_cons, Option.some.injEq] at hfirst
          subst hfirst
          unfold Ctx.pick at hpk
          rw [List.find?_cons_of_pos] at hpk
          · exact (Option.some.inj hpk).symm
          · simp [hroot, hk, hone rootPoint (by simp) hroot]
      rw [← hb, hq]
      rfl

end

end Verif.Proofs.LB
