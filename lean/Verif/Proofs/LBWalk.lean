import Verif.Proofs.LBUnique

/-! # The choices made by the walk of the map -/

set_option linter.unusedSectionVars false
set_option linter.unusedSimpArgs false

namespace Verif.Proofs.LB
open Verif.Go Verif.Model Verif.Model.LB Verif.Spec Verif.Spec.LB

variable {F : Type} [Arith F]

/-- The nodes before a space. -/
theorem gap_split {l : LineBreaker F} {m : Measure} (bs : List Block) (k : Nat) (u : List (TN F)) (z : TN F) (v : List (TN F))
    (h : parNodes l m k bs = u ++ z :: v) (hz : z.tag = some .gap) :
    ∃ bs1, u = tns l m k bs1 ++ (gapT l m).take 2 := by
  induction bs generalizing k u with
  | nil =>
    exfalso
    have hm : z ∈ parNodes l m k [] := by rw [h]; simp
    simp only [parNodes, tns, finT, List.nil_append, List.mem_cons, List.not_mem_nil, or_false] at hm
    rcases hm with rfl | rfl <;> cases hz
  | cons b rest ih =>
    have e : parNodes l m k (b :: rest) = b.tn l m k ++ parNodes l m (k + b.text.length) rest := by
      simp [parNodes, tns]
    rw [e] at h
    have key : ∀ {u' : List (TN F)}, parNodes l m (k + b.text.length) rest = u' ++ z :: v → u = b.tn l m k ++ u' →
        ∃ bs1, u = tns l m k bs1 ++ (gapT l m).take 2 := by
      intro u' h1 h2
      obtain ⟨bs1, h3⟩ := ih _ _ h1
      exact ⟨b :: bs1, by rw [h2, h3]; simp [tns]⟩
    rcases List.append_eq_append_iff.mp h with ⟨a, h1, h2⟩ | ⟨a, h1, h2⟩
    · exact key h2 h1
    · cases a with
      | nil =>
        simp only [List.nil_append, List.append_nil] at h1 h2
        exact key (u' := []) h2.symm (by rw [h1]; simp)
      | cons a0 a =>
        simp only [List.cons_append, List.cons.injEq] at h2
        obtain ⟨rfl, _⟩ := h2
        have hm : z ∈ b.tn l m k := by rw [h1]; simp
        cases b with
        | gap =>
          refine ⟨[], ?_⟩
          simp only [Block.tn, gapT] at h1
          cases u with
          | nil =>
            simp only [List.nil_append, List.cons.injEq] at h1
            rw [← h1.1] at hz; cases hz
          | cons u0 u =>
            cases u with
            | nil =>
              simp only [List.cons_append, List.nil_append, List.cons.injEq] at h1
              rw [← h1.2.1] at hz; cases hz
            | cons u1 u =>
              cases u with
              | nil =>
                simp only [List.cons_append, List.nil_append, List.cons.injEq] at h1
                simp [tns, gapT, h1.1, h1.2.1]
              | cons u2 u => simp at h1
        | box t =>
          simp only [Block.tn, List.mem_singleton] at hm
          subst hm; cases hz
        | soft =>
          simp only [Block.tn, softT] at hm
          split at hm <;> simp only [List.mem_cons, List.not_mem_nil, or_false] at hm
          · rcases hm with rfl | rfl | rfl | rfl <;> cases hz
          · subst hm; cases hz
        | mark t =>
          simp only [Block.tn, markT, List.mem_cons, List.not_mem_nil, or_false] at hm
          rcases hm with rfl | rfl | rfl | rfl | rfl <;> cases hz
        | hard t =>
          simp only [Block.tn, markT, List.mem_cons, List.not_mem_nil, or_false] at hm
          rcases hm with rfl | rfl | rfl | rfl | rfl <;> cases hz

/-- After a part of a word that is followed by a space there is no other node. -/
theorem tns_last_part {l : LineBreaker F} {m : Measure} (bs : List Block) (k : Nat) (t : List Rune)
    (h : (symsT (tns l m k bs)).getLast? = some (.part t)) :
    ∃ u y, tns l m k bs = u ++ [y] ∧ y.node.kind = .box := by
  induction bs generalizing k with
  | nil => simp [tns, symsT] at h
  | cons b rest ih =>
    rw [tns, symsT_append] at h
    by_cases hr : symsT (tns l m (k + b.text.length) rest) = []
    · cases rest with
      | nil =>
        rw [hr, List.append_nil] at h
        cases b with
        | box t => exact ⟨[], boxT l m k t, by simp [tns, Block.tn], rfl⟩
        | mark t => simp [Block.tn, markT, symsT, boxT] at h
        | hard t => simp [Block.tn, markT, symsT, boxT] at h
        | gap => simp [Block.tn, gapT, symsT] at h
        | soft =>
          simp only [Block.tn, softT] at h
          split at h <;> simp [symsT] at h
      | cons b' rest =>
        exfalso
        rw [tns, symsT_append] at hr
        have := (List.append_eq_nil_iff.mp hr).1
        cases b' with
        | box t => simp [Block.tn, symsT, boxT] at this
        | mark t => simp [Block.tn, markT, symsT, boxT] at this
        | hard t => simp [Block.tn, markT, symsT, boxT] at this
        | gap => simp [Block.tn, gapT, symsT] at this
        | soft =>
          simp only [Block.tn, softT] at this
          split at this <;> simp [symsT] at this
    · rw [List.getLast?_append_of_ne_nil _ hr] at h
      obtain ⟨u, y, h1, h2⟩ := ih _ h
      exact ⟨b.tn l m k ++ u, y, by rw [tns, h1]; simp, h2⟩

/-- Where a line may end at a space: before it, and at the glue after the word. -/
structure Gaps (T : List (TN F)) : Prop where
  gap : ∀ u z v, T = u ++ z :: v → z.tag = some .gap → ∃ u0 g x, u = u0 ++ [g, x] ∧ g.tag = none ∧ g.node.kind = .glue ∧
    x.tag = none ∧ x.node.kind = .penalty ∧
    ∀ t, (symsT u0).getLast? = some (.part t) → ∃ u1 y, u0 = u1 ++ [y] ∧ y.node.kind = .box

theorem gaps_parNodes {l : LineBreaker F} {m : Measure} (k : Nat) (bs : List Block) : Gaps (parNodes l m k bs) := by
  constructor
  intro u z v h hz
  obtain ⟨bs1, h1⟩ := gap_split bs k u z v h hz
  refine ⟨tns l m k bs1, _, _, h1, rfl, rfl, rfl, rfl, ?_⟩
  intro t ht
  exact tns_last_part bs1 k t ht

variable [Laws F]

section
variable {l : LineBreaker F} {m : Measure} (hs : Setup l m) {T : List (TN F)} (hT : Para l m T) {W : Int}
  (hstart : StartsWithPart (symsT T))
include hT hstart

include hs

/-- A line that ends at a node, from its symbols. -/
theorem line_of_left (u : List (TN F)) (x : TN F) (v : List (TN F)) (h : T = u ++ x :: v) {f : Bool} {q : List Sym}
    (hq : StartsWithPart q)
    (hl : Left (Acceptable m W (okRatio l.toOptions)) (symsT T) f (q ++ symsT (x :: v))) :
    ∃ pos c d y d', Reach l m T W f pos ∧ u = c ++ d ∧ pos ≤ c.length ∧ (∀ z ∈ c.drop pos, z.node.kind ≠ .box) ∧
      d = y :: d' ∧ y.node.kind = .box ∧ symsT d = q ∧ (f = true → ∀ z ∈ c, z.node.kind ≠ .box) := by
  obtain ⟨pos, hr, hlt, hrest⟩ := reach_left hs hT hstart hl
  have hne : T.drop pos ≠ [] := by
    intro e; have := congrArg List.length e; simp at this; omega
  have htl : (T.take pos).length = pos := by simp; omega
  obtain ⟨a, y, w, g1, g2, g3, g4, g5⟩ := skip_split hT.facts (T.take pos) (T.drop pos) (by simp) hne
  have hsl : startLine (symsT (T.drop pos)) = startLine (symsT (y :: w)) := by
    rw [g1, symsT_append]
    exact startLine_nonparts hT.facts a g3 _
  have hc' : T = (T.take pos ++ a) ++ y :: w := by rw [List.append_assoc, ← g1]; simp
  obtain ⟨t0, r0, hq0⟩ := hq
  have hyk : y.node.kind = .box := by
    rcases g4 with g4 | g4
    · exact g4
    · exfalso
      subst g4
      have := ((hT.facts _ y [] hc').last rfl).1
      rw [hsl, symsT_cons y, this, hq0] at hrest
      simp [symsT, startLine] at hrest
  obtain ⟨t', k', ey', _⟩ := (hT.facts _ y w hc').box hyk
  have hsy : symsT (y :: w) = .part t' :: symsT w := by rw [symsT_cons, ey']; rfl
  have hsyms : symsT (y :: w) = q ++ symsT (x :: v) := by
    have e : startLine (symsT (y :: w)) = symsT (y :: w) := by rw [hsy]; rfl
    rw [← e, ← hsl, ← hrest]
  obtain ⟨c, hcd⟩ : ∃ c, c = T.take pos ++ a := ⟨_, rfl⟩
  rw [← hcd] at hc'
  have hpc : pos ≤ c.length := by rw [hcd]; simp [htl]
  have hnb : ∀ z ∈ c.drop pos, z.node.kind ≠ .box := by
    intro z hz
    rw [hcd, List.drop_append_of_le_length (by omega), List.drop_of_length_le (by omega), List.nil_append] at hz
    exact g2 z hz
  have hq1 : 0 < q.length := by rw [hq0]; simp
  have hsplit : ∃ d, u = c ++ d := by
    rcases List.append_eq_append_iff.mp (h.symm.trans hc') with ⟨d, h1, h2⟩ | ⟨d, h1, h2⟩
    · exfalso
      have := congrArg symsT h2
      rw [symsT_append, hsyms] at this
      have := congrArg List.length this
      simp at this
      omega
    · exact ⟨d, h1⟩
  obtain ⟨d, hu⟩ := hsplit
  have hyw : y :: w = d ++ x :: v := by
    have : c ++ (y :: w) = c ++ (d ++ x :: v) := by
      rw [← hc', h, hu]; simp
    exact List.append_cancel_left this
  have hsd : symsT d = q := by
    rw [hyw, symsT_append] at hsyms
    exact List.append_cancel_right hsyms
  obtain ⟨d', hd⟩ : ∃ d', d = y :: d' := by
    cases d with
    | nil => rw [← hsd] at hq1; simp [symsT] at hq1
    | cons z d' =>
      simp only [List.cons_append, List.cons.injEq] at hyw
      exact ⟨d', by rw [hyw.1]⟩
  refine ⟨pos, c, d, y, d', hr, hu, hpc, hnb, hd, hyk, hsd, ?_⟩
  intro ef
  subst ef
  have hp0 : pos = 0 := by
    clear hl hlt hrest hne htl g1 g5 hsl hcd hpc hnb
    generalize hff : true = f at hr
    cases hr with
    | root => rfl
    | step => cases hff
  subst hp0
  simpa using hnb

omit hs in
/-- An acceptable line may be set, at a node with the full stretch, or if it fills the width. -/
theorem feas_of_full (first : Bool) (c d : List (TN F)) (x : TN F) (v : List (TN F)) (h : T = c ++ d ++ x :: v) (y : TN F)
    (d' : List (TN F)) (hd : d = y :: d') (hy : y.node.kind = .box) (hf : first = true → ∀ z ∈ c, z.node.kind ≠ .box)
    (ha : FillsLine m W (symsT d) (stopSym x v)) : FeasAt l m T W first c d x v := by
  obtain ⟨h1, h2, h3⟩ := stretch_eq (m := m) hT hstart first c d x v h y d' hd hy hf
  have hw : (if first then lineWidth m (symsT (c.drop (findStartNode (nds T) 0))) else 0) = 0 := by
    cases first with
    | false => rfl
    | true => simpa using h2
  unfold FeasAt
  simp only
  left
  rw [hw, add_zero]; exact ha

omit hs in
/-- A line that may be set at a node without stretch fills the width. -/
theorem full_of_feas (first : Bool) (c d : List (TN F)) (x : TN F) (v : List (TN F)) (h : T = c ++ d ++ x :: v) (y : TN F)
    (d' : List (TN F)) (hd : d = y :: d') (hy : y.node.kind = .box) (hf : first = true → ∀ z ∈ c, z.node.kind ≠ .box)
    (hb : sumSt (c ++ d) ≠ baseSt m (stopSym x v)) (hcut : Cut l m (sumSt (c ++ d)) x v)
    (hfe : FeasAt l m T W first c d x v) : FillsLine m W (symsT d) (stopSym x v) := by
  obtain ⟨h1, h2, h3⟩ := stretch_eq (m := m) hT hstart first c d x v h y d' hd hy hf
  have hw : (if first then lineWidth m (symsT (c.drop (findStartNode (nds T) 0))) else 0) = 0 := by
    cases first with
    | false => rfl
    | true => simpa using h2
  unfold FeasAt at hfe
  simp only at hfe
  rw [hw, add_zero, h1] at hfe
  rcases cut_base hcut with e | ⟨e, e'⟩
  · exact absurd e hb
  · rcases hfe with hfe | ⟨_, k2, _⟩
    · exact hfe
    · omega

end

/-! ## Where lines end -/

/-- No line ends earlier with the same text left. -/
def FirstAt (l : LineBreaker F) (m : Measure) (T : List (TN F)) (W : Int) (q : Point F) : Prop :=
  ∀ pos, Reach l m T W false pos → pos ≤ q.position →
    (∀ z ∈ (T.take q.position).drop pos, z.node.kind ≠ .box) → q.position ≤ pos

/-- The class of a break point is the one the walk of the map gives first, if it can be. -/
def PrefAt (rt : Runtime) (l : LineBreaker F) (m : Measure) (T : List (TN F)) (W : Int) (q : Point F) : Prop :=
  ∀ first pos c d x v, Reach l m T W first pos → T = c ++ d ++ x :: v → (c ++ d).length = q.position → pos ≤ c.length →
    (∀ z ∈ c.drop pos, z.node.kind ≠ .box) → (∃ y d', d = y :: d' ∧ y.node.kind = .box) → FeasAt l m T W first c d x v →
    (rt.order q.position 0).head? = some (newFitnessClass (ratioAt m T W first c d x v : F)) →
    q.fitness = newFitnessClass (ratioAt m T W first c d x v : F)

/-- The choices of a chain: all of its points but the last one. -/
def PrefAll (rt : Runtime) (l : LineBreaker F) (m : Measure) (T : List (TN F)) (W : Int) (ps : List (Point F)) : Prop :=
  ∀ q ∈ ps, q.position = 0 ∨ PrefAt rt l m T W q

section
variable {l : LineBreaker F} {m : Measure} (hs : Setup l m) {T : List (TN F)} (hT : Para l m T) {W : Int} (hW : Room m T W)
  (ht : Tol l.toOptions)
include hs hT hW ht

/-- The nodes between two break points of a chain. -/
theorem step_line {p q : Point F} {first : Bool} (hstep : Step l.toOptions (nds T) (Arith.ofInt W) p q) (hnb : NB T p q)
    (hp : if first then p = rootPoint.toPoint else TotAt m T p) :
    ∃ c d x v y d', T = c ++ d ++ x :: v ∧ d = y :: d' ∧ y.node.kind = .box ∧ p.position ≤ c.length ∧
      (∀ z ∈ c.drop p.position, z.node.kind ≠ .box) ∧ q.position = (c ++ d).length ∧ Cut l m (sumSt (c ++ d)) x v ∧
      FeasAt l m T W first c d x v ∧ q.fitness = newFitnessClass (ratioAt m T W first c d x v : F) := by
  obtain ⟨u, x, v, j1, j2, j3, j4, _⟩ := step_cut hT.facts hstep
  obtain ⟨c0, y0, w0, i1, i2, i3, i4⟩ := hnb
  have hplt : p.position < T.length := by rw [j1]; simp; omega
  have hne : T.drop p.position ≠ [] := by
    intro e; have := congrArg List.length e; simp at this; omega
  have htl : (T.take p.position).length = p.position := by simp; omega
  obtain ⟨a, y, w, g1, g2, g3, g4, g5⟩ := skip_split hT.facts (T.take p.position) (T.drop p.position) (by simp) hne
  have hc' : T = (T.take p.position ++ a) ++ y :: w := by rw [List.append_assoc, ← g1]; simp
  obtain ⟨c, hcd⟩ : ∃ c, c = T.take p.position ++ a := ⟨_, rfl⟩
  rw [← hcd] at hc'
  have hpc : p.position ≤ c.length := by rw [hcd]; simp [htl]
  have hnb' : ∀ z ∈ c.drop p.position, z.node.kind ≠ .box := by
    intro z hz
    rw [hcd, List.drop_append_of_le_length (by omega), List.drop_of_length_le (by omega), List.nil_append] at hz
    exact g2 z hz
  -- the first box is not after the one between the points
  have hle : c.length ≤ c0.length := by
    by_contra hlt
    apply hnb' y0 _ i2
    have e1 : T[c0.length]? = some y0 := by rw [i1]; simp
    rw [hc', List.getElem?_append_left (by omega)] at e1
    have e3 : (c.drop p.position)[c0.length - p.position]? = some y0 := by
      rw [List.getElem?_drop, show p.position + (c0.length - p.position) = c0.length by omega]; exact e1
    exact List.mem_of_getElem? e3
  have hlt : c.length < u.length := by omega
  obtain ⟨d, hu⟩ : ∃ d, u = c ++ d := by
    rcases List.append_eq_append_iff.mp (j1.symm.trans hc') with ⟨d, h1, h2⟩ | ⟨d, h1, h2⟩
    · have := congrArg List.length h1
      simp at this
      omega
    · exact ⟨d, h1⟩
  have hyw : y :: w = d ++ x :: v := by
    have : c ++ (y :: w) = c ++ (d ++ x :: v) := by
      rw [← hc', j1, hu]; simp
    exact List.append_cancel_left this
  obtain ⟨d', hd⟩ : ∃ d', d = y :: d' := by
    cases d with
    | nil => simp at hu; rw [hu] at hlt; omega
    | cons z d' =>
      simp only [List.cons_append, List.cons.injEq] at hyw
      exact ⟨d', by rw [hyw.1]⟩
  have hyk : y.node.kind = .box := by
    rcases g4 with g4 | g4
    · exact g4
    · exfalso
      subst g4
      rw [hd] at hyw
      simp at hyw
  have hTd : T = c ++ d ++ x :: v := by rw [j1, hu]
  have hstart2 : findStartNode (nds T) 0 ≤ c.length := by
    have := findStartNode_le_box c y w 0 (Or.inl hyk)
    rw [← hc'] at this; omega
  have hptot : p.totals = if first then Sums.zero else sumsT m (c.drop (findStartNode (nds T) 0)) := by
    cases first with
    | true => simp only [if_true] at hp ⊢; rw [hp]; rfl
    | false =>
      simp only [Bool.false_eq_true, if_false] at hp ⊢
      exact hp.2 c y _ hc' hpc hnb' (Or.inl hyk)
  rw [hu] at j4
  have hr := ratio_at hs hT hW (o := l.toOptions) c d x v hTd hstart2 j4 first p [] hptot _ _ rfl rfl
  obtain ⟨u', x', v', k1, k2, k3, k4, k5, k6⟩ := hstep
  have hul : u'.length = (c ++ d).length := by rw [← hu, ← j2, k6]; rfl
  have hx' : x' = x.node := by
    have e1 : (nds T)[u'.length]? = some x' := by rw [k1]; simp
    have e2 : (nds T)[(c ++ d).length]? = some x.node := by rw [hTd]; simp [nds]
    rw [hul, e2] at e1
    exact (Option.some.inj e1).symm
  subst hx'
  rw [hul] at k5
  have hfe := (feas_iff ht _ rfl _ _ _ _ (by have := hr.2.1; rw [abs_le] at this; exact this.2) hr.2.2 hr.1).mp k5
  refine ⟨c, d, x, v, y, d', hTd, hd, hyk, hpc, hnb', by rw [j2, hu], j4, hfe, ?_⟩
  rw [k6, hul]
  show (ctxAt l.toOptions (nds T) (Arith.ofInt W) (c ++ d).length x.node).cls ⟨p, []⟩ = _
  unfold Ctx.cls
  rw [hr.1]
  rfl

/-- A point followed by a line that starts as early as possible is the first one with the same text left. -/
theorem first_of_early {p q : Point F} (hstep : Step l.toOptions (nds T) (Arith.ofInt W) p q) (hnb : NB T p q)
    (hp : TotAt m T p) (he : EarlyAt l m T W p q) : FirstAt l m T W p := by
  obtain ⟨c, d, x, v, y, d', h1, h2, h3, h4, h5, h6, h7, h8, h9⟩ := step_line hs hT hW ht (first := false) hstep hnb hp
  intro pos hr hle hno
  refine he false pos c d x v hr h1 h6.symm (by omega) ?_ ⟨y, d', h2, h3⟩ h8 h9.symm
  intro z hz
  have e : c.drop pos = (T.take p.position).drop pos ++ c.drop p.position := by
    have e1 : T.take p.position = c.take p.position := by
      rw [h1, List.append_assoc, List.take_append_of_le_length h4]
    rw [e1]
    have e2 : c.drop pos = ((c.take p.position) ++ c.drop p.position).drop pos := by rw [List.take_append_drop]
    rw [e2, List.drop_append_of_le_length (by simp; omega)]
  rw [e, List.mem_append] at hz
  rcases hz with hz | hz
  · exact hno z hz
  · exact h5 z hz

variable (hroot : RootNB l T W) (htame : TameOpts l) (hpos : 0 < W) (rt : Runtime)
  (hrt : ∀ (i n : Nat) (c : Class), c ∈ rt.order i n)

omit ht in
/-- An active break point for each place that is reached. -/
theorem active_of_reach (ht : Tol l.toOptions) (u : List (TN F)) (x : TN F) (v : List (TN F)) (h : T = u ++ x :: v)
    (hl : LegalAt (u.getLast?.map TN.node) x.node) (act : List (BreakPoint F)) (hi : Inv l m T W u.length act)
    (first : Bool) (pos : Nat) (c d : List (TN F)) (x' : TN F) (v' : List (TN F)) (r1 : Reach l m T W first pos)
    (r2 : T = c ++ d ++ x' :: v') (hn : u.length = (c ++ d).length) (r3 : pos ≤ c.length)
    (r4 : ∀ z ∈ c.drop pos, z.node.kind ≠ .box) (r5 : ∃ y d', d = y :: d' ∧ y.node.kind = .box)
    (r7 : FeasAt l m T W first c d x' v') :
    ∃ a ∈ act, (ctxAt l.toOptions (nds T) (Arith.ofInt W) u.length x.node).feas a = true ∧
      (ctxAt l.toOptions (nds T) (Arith.ofInt W) u.length x.node).cls a = newFitnessClass (ratioAt m T W first c d x' v') := by
  have hf := hT.facts u x v h
  have hcut := hf.legal hl
  obtain ⟨ctx, hctx⟩ : ∃ ctx, ctx = ctxAt l.toOptions (nds T) (Arith.ofInt W) u.length x.node := ⟨_, rfl⟩
  rw [← hctx]
  have heq : u = c ++ d ∧ x = x' ∧ v = v' := by
    have := List.append_inj (h.symm.trans r2) hn
    refine ⟨this.1, ?_, ?_⟩
    · simpa using (List.cons.inj this.2).1
    · simpa using (List.cons.inj this.2).2
  obtain ⟨rfl, rfl, rfl⟩ := heq
  obtain ⟨y, d', rfl, hy⟩ := r5
  have hTc : T = c ++ y :: (d' ++ x :: v) := by rw [r2]; simp
  have hsc : findStartNode (nds T) 0 ≤ c.length := by
    have := findStartNode_le_box c y (d' ++ x :: v) 0 (Or.inl hy)
    rw [← hTc] at this; omega
  obtain ⟨a, ham, hat⟩ : ∃ a ∈ act,
      a.totals = if first then Sums.zero else sumsT m (c.drop (findStartNode (nds T) 0)) := by
    cases first with
    | true => exact ⟨rootPoint, hi.root, rfl⟩
    | false =>
      obtain ⟨a, h1, h2⟩ := hi.reach pos r1 (by simp; omega)
      exact ⟨a, h1, h2.2 c y _ hTc r3 r4 (Or.inl hy)⟩
  have hr := ratio_at hs hT hW (o := l.toOptions) c (y :: d') x v r2 hsc hcut first a.toPoint a.previous hat _ _ rfl rfl
  rw [← hctx] at hr
  refine ⟨a, ham, (feas_iff ht ctx (by rw [hctx]; rfl) a _ W _ ?_ hr.2.2 hr.1).mpr r7, ?_⟩
  · exact (abs_le.mp hr.2.1).2
  · unfold Ctx.cls
    rw [hr.1]
    rfl

end

/-! ## The invariant of the search -/

/-- The choices made so far. -/
structure PInv (rt : Runtime) (l : LineBreaker F) (m : Measure) (T : List (TN F)) (W : Int) (act : List (BreakPoint F)) :
    Prop where
  prev : ∀ a ∈ act, PrefAll rt l m T W a.previous
  self : ∀ (i : Nat) a, act[i]? = some a → a.position = 0 ∨ PrefAt rt l m T W a.toPoint ∨
    ∃ (j : Nat) (b : BreakPoint F), j < i ∧ act[j]? = some b ∧ b.totals = a.totals

section
variable {l : LineBreaker F} {m : Measure} (hs : Setup l m) {T : List (TN F)} (hT : Para l m T) {W : Int} (hW : Room m T W)
  (hroot : RootNB l T W) (ht : Tol l.toOptions) (htame : TameOpts l) (hpos : 0 < W) (rt : Runtime)
  (hrt : ∀ (i n : Nat) (c : Class), c ∈ rt.order i n)
include hs hT hW ht

/-- The new break points of a step. -/
theorem pref_new (u : List (TN F)) (x : TN F) (v : List (TN F)) (h : T = u ++ x :: v)
    (hl : LegalAt (u.getLast?.map TN.node) x.node) (act : List (BreakPoint F)) (hi : Inv l m T W u.length act)
    (hp : PInv rt l m T W act) (new : List (BreakPoint F))
    (hnew : new = (rt.order u.length 0).filterMap (fun c =>
        ((ctxAt l.toOptions (nds T) (Arith.ofInt W) u.length x.node).pick act c).map
          (newBreak u.length c (ctxAt l.toOptions (nds T) (Arith.ofInt W) u.length x.node).tot))) :
    (∀ b ∈ new, PrefAll rt l m T W b.previous ∧
      b.totals = (ctxAt l.toOptions (nds T) (Arith.ofInt W) u.length x.node).tot) ∧
    ∀ b, new.head? = some b → PrefAt rt l m T W b.toPoint := by
  obtain ⟨ctx, hctx⟩ : ∃ ctx, ctx = ctxAt l.toOptions (nds T) (Arith.ofInt W) u.length x.node := ⟨_, rfl⟩
  rw [← hctx] at hnew ⊢
  have hb : ∀ b ∈ new, ∃ k q, ctx.pick act k = some q ∧ b = newBreak u.length k ctx.tot q := by
    intro b hb
    rw [hnew, List.mem_filterMap] at hb
    obtain ⟨k, _, hb⟩ := hb
    cases hpk : ctx.pick act k with
    | none => rw [hpk] at hb; cases hb
    | some q =>
      rw [hpk] at hb
      simp only [Option.map_some, Option.some.injEq] at hb
      exact ⟨k, q, hpk, hb.symm⟩
  constructor
  · intro b hbm
    obtain ⟨k, q, hpk, rfl⟩ := hb b hbm
    refine ⟨?_, rfl⟩
    unfold Ctx.pick at hpk
    obtain ⟨hq1, as, bs, hq2, hq3⟩ := List.find?_eq_some_iff_append.mp hpk
    simp only [Bool.and_eq_true, decide_eq_true_eq] at hq1
    have hqm : q ∈ act := by rw [hq2]; simp
    intro p hpm
    simp only [newBreak, List.mem_cons] at hpm
    rcases hpm with rfl | hpm
    · rcases hp.self as.length q (by rw [hq2]; simp) with e | e | ⟨j, b, j1, j2, j3⟩
      · exact Or.inl e
      · exact Or.inr e
      · exfalso
        have hbm : b ∈ as := by
          rw [hq2, List.getElem?_append_left j1] at j2
          exact List.mem_of_getElem? j2
        have := hq3 b hbm
        have hrat : ctx.ratio b = ctx.ratio q := by unfold Ctx.ratio; rw [j3]
        unfold Ctx.feas Ctx.cls at this hq1
        rw [hrat, hq1.1, hq1.2] at this
        simp at this
    · exact hp.prev q hqm p hpm
  · intro b hbh
    have hbp : b.toPoint.position = u.length := by
      obtain ⟨k, q, _, rfl⟩ := hb b (List.mem_of_mem_head? hbh)
      rfl
    intro first pos c d x' v' r1 r2 hn r3 r4 r5 r7 r8
    obtain ⟨a, ham, haf, hac⟩ := active_of_reach hs hT hW ht u x v h hl act hi first pos c d x' v' r1 r2
      (by rw [hn, hbp]) r3 r4 r5 r7
    rw [← hctx] at haf hac
    obtain ⟨k, hk⟩ : ∃ k, k = newFitnessClass (ratioAt m T W first c d x' v' : F) := ⟨_, rfl⟩
    rw [← hk] at hac r8 ⊢
    rw [hbp] at r8
    have hsome : (ctx.pick act k).isSome = true := by
      unfold Ctx.pick
      rw [List.find?_isSome]
      exact ⟨a, ham, by simp [haf, hac]⟩
    obtain ⟨q, hq⟩ := Option.isSome_iff_exists.mp hsome
    cases ho : rt.order u.length 0 with
    | nil => rw [ho] at r8; cases r8
    | cons k' rest =>
      rw [ho] at r8 hnew
      simp only [List.head?_cons, Option.some.injEq] at r8
      subst r8
      rw [List.filterMap_cons, hq] at hnew
      simp only [Option.map_some] at hnew
      rw [hnew] at hbh
      simp only [List.head?_cons, Option.some.injEq] at hbh
      rw [← hbh]; rfl

theorem pinv_step (u : List (TN F)) (x : TN F) (v : List (TN F)) (h : T = u ++ x :: v)
    (hl : LegalAt (u.getLast?.map TN.node) x.node) (act : List (BreakPoint F)) (hi : Inv l m T W u.length act)
    (hp : PInv rt l m T W act) (new : List (BreakPoint F))
    (hnew : new = (rt.order u.length 0).filterMap (fun c =>
        ((ctxAt l.toOptions (nds T) (Arith.ofInt W) u.length x.node).pick act c).map
          (newBreak u.length c (ctxAt l.toOptions (nds T) (Arith.ofInt W) u.length x.node).tot))) :
    PInv rt l m T W (act ++ new) := by
  obtain ⟨g1, g2⟩ := pref_new hs hT hW ht rt u x v h hl act hi hp new hnew
  constructor
  · intro a ha
    rw [List.mem_append] at ha
    rcases ha with ha | ha
    · exact hp.prev a ha
    · exact (g1 a ha).1
  · intro i a hia
    by_cases hlt : i < act.length
    · rw [List.getElem?_append_left hlt] at hia
      rcases hp.self i a hia with e | e | ⟨j, b, j1, j2, j3⟩
      · exact Or.inl e
      · exact Or.inr (Or.inl e)
      · exact Or.inr (Or.inr ⟨j, b, j1, by rw [List.getElem?_append_left (by omega)]; exact j2, j3⟩)
    · rw [List.getElem?_append_right (by omega)] at hia
      by_cases h0 : i - act.length = 0
      · rw [h0] at hia
        exact Or.inr (Or.inl (g2 a (by rw [List.head?_eq_getElem?]; exact hia)))
      · right; right
        cases hn : new with
        | nil => rw [hn] at hia; simp at hia
        | cons b rest =>
          refine ⟨act.length, b, by omega, by simp, ?_⟩
          rw [(g1 b (by rw [hn]; simp)).2, (g1 a (List.mem_of_getElem? hia)).2]

include hroot htame hpos hrt

/-- The search, with its choices. -/
theorem loop_pref (v u : List (TN F)) (act : List (BreakPoint F)) (h : T = u ++ v) (hv : v ≠ [])
    (hst : findStartNode (nds T) 0 ≤ u.length) (hi : Inv l m T W u.length act) (hp : PInv rt l m T W act) :
    ∃ act', breakLoop rt l.toOptions (nds T) (Arith.ofInt W) (u.getLast?.map TN.node) (nds v) u.length
        (sumAt (nds T) u.length) act = .ok act' ∧
      ∀ a, act'.head? = some a → Tight T (a.toPoint :: a.previous) ∧ EarlyAll l m T W (a.toPoint :: a.previous) ∧
        PrefAll rt l m T W (a.toPoint :: a.previous) := by
  induction v generalizing u act with
  | nil => exact absurd rfl hv
  | cons x v ih =>
    have hun : (nds T) = nds u ++ x.node :: nds v := by rw [h]; simp [nds]
    have hul : (nds u).length = u.length := by simp [nds]
    have hgl : (nds u).getLast? = u.getLast?.map TN.node := by
      unfold nds; exact List.getLast?_map
    have hb := breakLoop_cons rt l.toOptions (nds T) (Arith.ofInt W) (nds u) (nds v) x.node hun (by rw [hul]; exact hst) act
    rw [hul, hgl] at hb
    have e1 : nds (x :: v) = x.node :: nds v := rfl
    have e2 : (nds u ++ [x.node]).length = (u ++ [x]).length := by simp [nds]
    have e3 : (nds u ++ [x.node]).getLast? = (u ++ [x]).getLast?.map TN.node := by simp
    rw [e1, hb, e2, e3]
    have h' : T = (u ++ [x]) ++ v := by rw [h]; simp
    have hst' : findStartNode (nds T) 0 ≤ (u ++ [x]).length := by simp; omega
    by_cases hl : LegalAt (u.getLast?.map TN.node) x.node
    · rw [if_pos hl]
      by_cases hv' : v = []
      · subst hv'
        obtain ⟨new, h1, h2, _, _, hnew⟩ := step_new hs hT hW hroot ht htame hpos rt hrt u x [] h hst hl act hi
        simp only [if_true, List.nil_append] at h1
        refine ⟨new, by rw [h1]; simp [nds, breakLoop], ?_⟩
        intro a ha
        obtain ⟨g1, g2⟩ := pref_new hs hT hW ht rt u x [] h hl act hi hp new hnew
        have ham := List.mem_of_mem_head? ha
        refine ⟨(h2 a ham).2.2.2.1 rfl, (h2 a ham).2.2.2.2.1, ?_⟩
        intro q hq
        rw [List.mem_cons] at hq
        rcases hq with rfl | hq
        · exact Or.inr (g2 a ha)
        · exact (g1 a ham).1 q hq
      · obtain ⟨act', h1, h2, h3⟩ := inv_step hs hT hW hroot ht htame hpos rt hrt u x v h hv' hst hl act hi
        rw [h1, ok_bind]
        refine ih _ _ h' hv' hst' h2 ?_
        rw [h3]
        exact pinv_step hs hT hW ht rt u x v h hl act hi hp _ rfl
    · rw [if_neg hl, ok_bind]
      have hv' : v ≠ [] := by
        rintro rfl
        apply hl
        right
        have := ((hT.facts u x [] h).last rfl).2.1
        rw [this]
        refine ⟨rfl, ?_⟩
        simp [newPenalty, minusInfinity, infinity, eq_small (F := F) (-10000) 10000 (by decide) (by decide)]
      refine ih _ _ h' hv' hst' ⟨?_, hi.root, hi.first, hi.order, hi.tight, ?_, hi.sorted, hi.early⟩ hp
      · intro a ha
        have := hi.ok a ha
        refine ⟨this.1, ?_⟩
        simp; omega
      · intro pos hr hlt
        by_cases he : pos = u.length
        · subst he
          exact absurd (reach_legal u x v h hr) hl
        · exact hi.reach pos hr (by simp at hlt; omega)

omit hs hT hW hroot ht htame hpos hrt in
theorem pinv_root : PInv rt l m T W [rootPoint] := by
  constructor
  · intro a ha
    simp at ha
    subst ha
    intro q hq
    cases hq
  · intro i a hia
    have := List.mem_of_getElem? hia
    simp at this
    subst this
    exact Or.inl rfl

end

/-! ## From nodes to symbols -/

theorem startLine_part {a : List Sym} {t : List Rune} (h : Sym.part t ∈ a) (rest : List Sym) :
    rest.length < (startLine (a ++ rest)).length := by
  induction a with
  | nil => cases h
  | cons x a ih =>
    cases x with
    | part t' => simp [startLine]; omega
    | _ =>
      simp only [List.mem_cons, reduceCtorEq, false_or] at h
      exact ih h

theorem symsT_drop_le (T : List (TN F)) {i j : Nat} (h : i ≤ j) : (symsT (T.drop j)).length ≤ (symsT (T.drop i)).length := by
  have : T.drop i = (T.drop i).take (j - i) ++ T.drop j := by
    conv_lhs => rw [← List.take_append_drop (j - i) (T.drop i)]
    rw [List.drop_drop, show i + (j - i) = j by omega]
  rw [this, symsT_append]
  simp

section
variable {l : LineBreaker F} {m : Measure} (hs : Setup l m) {T : List (TN F)} (hT : Para l m T) (hG : Gaps T) {W : Int} (hW : Room m T W)
  (hstart : StartsWithPart (symsT T))
include hs hT hG hstart

/-- A line that ends as early as possible. -/
theorem ends_of_first {q : Point F} (first : Bool) (c d : List (TN F)) (x : TN F) (v : List (TN F))
    (h : T = c ++ d ++ x :: v) (y : TN F) (d' : List (TN F)) (hd : d = y :: d') (hy : y.node.kind = .box)
    (hf : first = true → ∀ z ∈ c, z.node.kind ≠ .box) (hq : q.position = (c ++ d).length)
    (hcut : Cut l m (sumSt (c ++ d)) x v) (hfe : FeasAt l m T W first c d x v) (he : FirstAt l m T W q) (s : Sym)
    (hst : stopSym x v = some s) :
    EndsEarly (Acceptable m W (okRatio l.toOptions)) (FillsLine m W) (symsT T) (symsT d) s (restSym x v) := by
  intro f p' s' rest' hl hp hns hacc hsl
  have hqlt : q.position < T.length := by rw [hq, h]; simp
  have hdq : T.drop q.position = x :: v := by rw [hq]; exact drop_len h
  have hsq : symsT (T.drop q.position) = s :: restSym x v := by rw [hdq, stop_rest, hst]; rfl
  obtain ⟨pos0, hr0, hlt0, hrest0⟩ := reach_left hs hT hstart hl
  obtain ⟨pos', hr, hlt, hrest⟩ := reach_at hs hT (indent_of_start hT hstart) hp hns (by rw [acceptableIn_zero]; exact hacc) pos0
    hr0 hlt0 hrest0
  constructor
  · by_contra hlen
    have hpl : pos' < q.position := by
      by_contra hle
      have := symsT_drop_le T (show q.position ≤ pos' by omega)
      rw [hrest, hsq] at this
      simp at this
      omega
    have hsplit : T.drop pos' = (T.take q.position).drop pos' ++ T.drop q.position := by
      conv_lhs => rw [← List.take_append_drop q.position T]
      rw [List.drop_append_of_le_length (by simp; omega)]
    have := he pos' hr (by omega) ?_
    · omega
    · intro z hz hk
      obtain ⟨a, b, hab⟩ := List.append_of_mem hz
      have hTz : T = (T.take pos' ++ a) ++ z :: (b ++ T.drop q.position) := by
        conv_lhs => rw [← List.take_append_drop pos' T, hsplit, hab]
        simp
      obtain ⟨t, k, ez, _⟩ := (hT.facts _ z _ hTz).box hk
      have hm : Sym.part t ∈ symsT ((T.take q.position).drop pos') := by
        rw [hab, symsT_append, symsT_cons, ez]
        simp [boxT]
      have h1 := startLine_part hm (symsT (T.drop q.position))
      rw [← symsT_append, ← hsplit, hrest, hsq] at h1
      have h2 : startLine (s' :: rest') = startLine rest' := by
        cases s' with
        | part t => exact absurd rfl (hns t)
        | _ => rfl
      rw [h2, hsl] at h1
      have := startLine_length_le (restSym x v)
      simp at h1
      omega
  · rintro hlen rfl ⟨t, hpt⟩ hfull
    -- the same place
    have hsame : Sym.gap :: rest' = s :: restSym x v := by
      have s1 : (Sym.gap :: rest') <:+ symsT T := List.IsSuffix.trans ⟨p', rfl⟩ (left_suffix hl)
      have s2 : (s :: restSym x v) <:+ symsT T := by
        rw [← hsq]
        refine ⟨symsT (T.take q.position), ?_⟩
        rw [← symsT_append, List.take_append_drop]
      rcases List.suffix_or_suffix_of_suffix s1 s2 with h | h
      · exact h.eq_of_length (by simp; omega)
      · exact (h.eq_of_length (by simp; omega)).symm
    simp only [List.cons.injEq] at hsame
    obtain ⟨rfl, rfl⟩ := hsame
    cases hcut with
    | final e1 e2 _ _ _ e6 => simp [stopSym, e1, e2, symsT] at hst
    | pen s2 e1 e2 _ _ _ e6 =>
      simp only [stopSym, e1, Option.some.injEq] at hst
      subst hst
      rcases e2 with e2 | e2 | e2 <;> cases e2
    | fin z e1 e2 e3 _ _ _ e7 => simp [stopSym, e1, e2, e3, symsT] at hst
    | gap r e1 e2 e3 e4 =>
      rcases e4 with ⟨e4, e5⟩ | ⟨e4, e5, e6⟩
      · rw [← hst]
        refine full_of_feas hT hstart first c d x v h y d' hd hy hf ?_ (.gap r e1 e2 e3 (Or.inl ⟨e4, e5⟩)) hfe
        rw [e5, hst]; simp [baseSt]
      · exfalso
        -- the nodes up to the space
        obtain ⟨e0, z, v', k4, k5, k6, k7⟩ := List.filterMap_eq_cons_iff.mp e2
        have hTz : T = (c ++ d ++ x :: e0) ++ z :: v' := by rw [h, k4]; simp
        obtain ⟨u0, g, xx, j1, j2, j3, j4, j5, j6⟩ := hG.gap _ z v' hTz k6
        have hTg : T = u0 ++ g :: (xx :: z :: v') := by rw [hTz, j1]; simp
        have hsz : symsT (z :: v') = .gap :: r := by rw [symsT_cons, k6]; simp [symsT, k7]
        have hsg : symsT (g :: xx :: z :: v') = .gap :: r := by rw [symsT_cons g, symsT_cons xx, j2, j4, hsz]; rfl
        have hrs : restSym x v = r := by unfold restSym; rw [e1, e2]; rfl
        obtain ⟨pos, c2, d2, y2, d2', i1, i2, i3, i4, i5, i6, i7, i8⟩ := line_of_left hs hT hstart u0 g _ hTg hp
          (by rw [hsg, ← hrs]; exact hl)
        have hlast : (symsT u0).getLast? = some (.part t) := by
          rw [i2, symsT_append, i7, List.getLast?_append, hpt]; rfl
        obtain ⟨u1, y1, w1, w2⟩ := j6 t hlast
        have hx : c ++ d = u0 ++ [g] ∧ x = xx := by
          have e := j1
          rcases List.eq_nil_or_concat e0 with he0 | ⟨e1', w, he0⟩
          · subst he0
            have e' : (c ++ d) ++ [x] = (u0 ++ [g]) ++ [xx] := by simpa using e
            have := List.append_inj' e' rfl
            exact ⟨this.1, by simpa using this.2⟩
          · exfalso
            rw [List.concat_eq_append] at he0
            subst he0
            have e' : (c ++ d ++ x :: e1') ++ [w] = (u0 ++ [g]) ++ [xx] := by simpa using e
            have e'' := (List.append_inj' e' rfl).1
            rcases List.eq_nil_or_concat e1' with he1 | ⟨e2', w', he1⟩
            · subst he1
              have := (List.append_inj' (show (c ++ d) ++ [x] = u0 ++ [g] by simpa using e'') rfl).2
              simp only [List.cons.injEq, and_true] at this
              rw [this, j3] at e4
              cases e4
            · rw [List.concat_eq_append] at he1
              subst he1
              have e3' : (c ++ d ++ x :: e2') ++ [w'] = u0 ++ [g] := by simpa using e''
              have e4' := (List.append_inj' e3' rfl).1
              rw [w1] at e4'
              have hbt : ∀ w ∈ x :: e2', w.tag = none := by
                intro w hw
                simp only [List.mem_cons] at hw
                rcases hw with rfl | hw
                · exact e1
                · exact k5 w (by simp [hw])
              have hy1 : y1 ∈ x :: e2' := by
                have := congrArg List.getLast? e4'
                rw [List.getLast?_append_of_ne_nil _ (by simp)] at this
                simp only [List.getLast?_concat] at this
                exact List.mem_of_getLast? this
              have hTy : T = u1 ++ y1 :: (g :: xx :: z :: v') := by rw [hTg, w1]; simp
              obtain ⟨tt, kk, ey, _⟩ := (hT.facts _ y1 _ hTy).box w2
              have := hbt y1 hy1
              rw [ey] at this
              cases this
        have hlegal : LegalAt ((c2 ++ d2).getLast?.map TN.node) g.node := by
          left
          refine ⟨j3, ?_⟩
          rw [← i2, w1]
          simp [w2]
        have hstop : stopSym g (xx :: z :: v') = some .gap := by
          unfold stopSym; rw [j2, symsT_cons xx, j4, hsz]; rfl
        have hnew := Reach.step c2 d2 g (xx :: z :: v') i1 (by rw [← i2]; exact hTg) i3 i4 ⟨y2, d2', i5, i6⟩ hlegal
          (feas_of_full hT hstart f c2 d2 g _ (by rw [← i2]; exact hTg) y2 d2' i5 i6 i8 (by rw [i7, hstop]; exact hfull))
        rw [← i2] at hnew
        have hql : q.position = u0.length + 1 := by rw [hq, hx.1]; simp
        have := he _ hnew (by omega) ?_
        · omega
        · intro w hw
          have ht' : T.take q.position = u0 ++ [g] := by
            rw [hql, hTg]; simp [List.take_append]
          rw [ht'] at hw
          simp only [List.drop_left, List.mem_singleton] at hw
          rw [hw, j3]
          simp

omit hG
include hW

/-- The looseness of a line is the one the walk gives first, if it can be. -/
theorem wanted_of_pref {rt : Runtime} {want : Nat → Int}
    (hw : ∀ i c, c.toInt = want ((symsT (T.drop i)).length - 1) → (rt.order i 0).head? = some c)
    {q : Point F} (first : Bool) (c d : List (TN F)) (x : TN F) (v : List (TN F))
    (h : T = c ++ d ++ x :: v) (y : TN F) (d' : List (TN F)) (hd : d = y :: d') (hy : y.node.kind = .box)
    (hf : first = true → ∀ z ∈ c, z.node.kind ≠ .box) (hq : q.position = (c ++ d).length)
    (hlegal : LegalAt ((c ++ d).getLast?.map TN.node) x.node)
    (hcut : Cut l m (sumSt (c ++ d)) x v) (hfe : FeasAt l m T W first c d x v)
    (hcls : q.fitness = newFitnessClass (ratioAt m T W first c d x v : F)) (hp : PrefAt rt l m T W q)
    (hnf : (∃ z ∈ v, z.node.kind = .box) ∨ v = []) :
    Wanted (Acceptable m W (okRatio l.toOptions)) (looseness F m W) (FillsLine m W) (symsT T) want first (symsT d) (stopSym x v)
      (restSym x v) := by
  intro f p' hl hsp hacc hcw
  have hlen : (symsT (T.drop q.position)).length - 1 = (restSym x v).length := by
    rw [hq, drop_len h, stop_rest]
    cases hst : stopSym x v with
    | some s => simp
    | none =>
      have : symsT v = [] ∧ x.tag = none := by
        unfold stopSym at hst
        cases hxt : x.tag with
        | some s => rw [hxt] at hst; cases hst
        | none =>
          rw [hxt] at hst
          simp only [List.head?_eq_none_iff] at hst
          exact ⟨hst, rfl⟩
      unfold restSym
      rw [this.1, this.2]
      simp
  have hl' : Left (Acceptable m W (okRatio l.toOptions)) (symsT T) f (p' ++ symsT (x :: v)) := by
    rw [stop_rest, ← List.append_assoc]; exact hl
  obtain ⟨pos, c2, d2, y2, d2', i1, i2, i3, i4, i5, i6, i7, i8⟩ := line_of_left hs hT hstart (c ++ d) x v h hsp hl'
  have hT2 : T = c2 ++ d2 ++ x :: v := by rw [← i2]; exact h
  have hcut2 : Cut l m (sumSt (c2 ++ d2)) x v := by rw [← i2]; exact hcut
  by_cases hb : sumSt (c ++ d) = baseSt m (stopSym x v)
  · left
    have hfe2 : FeasAt l m T W f c2 d2 x v := feas_of_acceptable hT hstart f c2 d2 x v hT2 y2 d2' i5 i6 i8
      (by rw [← i2]; exact hb) (by rw [i7]; exact hacc)
    have e1 := class_at hs hT hW hstart f c2 d2 x v hT2 y2 d2' i5 i6 i8 hcut2 hfe2
    have e2 := class_at hs hT hW hstart first c d x v h y d' hd hy hf hcut hfe
    rw [i7, hcw, ← hlen] at e1
    have := hp f pos c2 d2 x v i1 hT2 (by rw [← i2, hq]) i3 i4 ⟨y2, d2', i5, i6⟩ hfe2 (hw _ _ e1)
    rw [← e2, ← hcls, this, e1, hlen]
  · right
    have hfull := full_of_feas hT hstart first c d x v h y d' hd hy hf hb hcut hfe
    rcases cut_base hcut with e | ⟨e0, e⟩
    · exact absurd e hb
    · have hglue : x.node.kind = .glue ∧ stopSym x v = some .gap := by
        cases hcut with
        | final _ _ _ _ _ e6 => rw [e0] at e6; cases e6
        | pen s e1 e2 _ _ _ e6 =>
          exfalso; apply hb; rw [e6]
          rcases e2 with rfl | rfl | rfl <;> simp [stopSym, e1, baseSt]
        | gap r e1 e2 e3 e4 =>
          rcases e4 with ⟨e4, e5⟩ | ⟨e4, e5, e6⟩
          · exact ⟨e4, by simp [stopSym, e1, e2]⟩
          · rw [e0] at e6; cases e6
        | fin z e1 e2 e3 e4 e5 _ e7 =>
          exfalso
          rcases hnf with ⟨w, hw1, hw2⟩ | hnf
          · rw [e2, List.mem_singleton] at hw1
            rw [hw1, e4] at hw2
            cases hw2
          · rw [e2] at hnf; cases hnf
      refine ⟨hglue.2, hfull, ?_⟩
      rcases hlegal with ⟨_, hk⟩ | ⟨hk, _⟩
      · obtain ⟨d1, w, hdw⟩ : ∃ d1 w, d = d1 ++ [w] := by
          rcases List.eq_nil_or_concat d with e | ⟨d1, w, e⟩
          · rw [hd] at e; cases e
          · exact ⟨d1, w, by rw [e, List.concat_eq_append]⟩
        rw [hdw, ← List.append_assoc] at hk
        simp only [List.getLast?_concat, Option.map_some, Option.some.injEq] at hk
        obtain ⟨t, k, ew, _⟩ := (hT.facts (c ++ d1) w (x :: v) (by rw [h, hdw]; simp)).box hk
        refine ⟨t, ?_⟩
        rw [hdw, symsT_append, symsT_cons, ew]
        simp [boxT, symsT]
      · rw [hglue.1] at hk; cases hk

end

/-! ## The result for a given walk -/

theorem Path.ends {R : Point F → Point F → Prop} {L : Point F → Prop} {p : Point F} {pts : List (Point F)} (h : Path R p pts) :
    (∀ q, pts.getLast? = some q → L q) → Path (fun p q => R p q ∧ (L q ∨ ∃ r, R q r)) p pts := by
  induction h with
  | nil p => exact fun _ => Path.nil _
  | @cons p q rest h1 h2 ih =>
    intro hl
    refine Path.cons ⟨h1, ?_⟩ (ih ?_)
    · cases h2 with
      | nil => exact Or.inl (hl q rfl)
      | cons h3 _ => exact Or.inr ⟨_, h3⟩
    · intro q' hq'
      apply hl q'
      rw [List.getLast?_cons, hq']; rfl

/-- **The result for a given walk of the map.** -/
theorem align_walk {rt : Runtime} (hrt : ∀ (i n : Nat) (c : Class), c ∈ rt.order i n) {env : Env} {l : LineBreaker F}
    {sp : Splitter} (hsp : Splits env l sp)
    {m : Measure} (hs : Setup l m) (tokens : List (List Rune)) (tks : List (List Span))
    (hst : List.Forall₂ (Strips rt env) tokens tks) (hne : tokens ≠ []) (L : List Piece) (hL : l.attrList = lv 0 L)
    (maxWidth : F) (W : Int) (hW : l.scale maxWidth = Arith.ofInt W) (hpos : 0 < W) (g : List Rune) (hg : Pads l.toOptions m g)
    (ht : Tol l.toOptions) (htame : TameOpts l) (hstart : StartsWithPart (syms (parBlocks sp tks)))
    (hB : lineWidth m (syms (parBlocks sp tks)) + m.hyphen + |W| ≤ Laws.bound F) (want : Nat → Int)
    (hw : ∀ i c, c.toInt = want ((symsT ((parNodes l m L.length (parBlocks sp tks)).drop i)).length - 1) →
      (rt.order i 0).head? = some c) :
    leftAlignUniform rt env l tokens maxWidth = .ok (none, { l with attrList := lv 0 (L ++ parPieces sp tks) }) ∨
    ∃ segs lines, List.Forall₂ (LineOf l) segs lines ∧
      (∀ z ∈ segs.flatten, z ∈ parNodes l m L.length (parBlocks sp tks)) ∧
      leftAlignUniform rt env l tokens maxWidth =
        .ok (some (renderSegs l (lv 0 (L ++ parPieces sp tks)) g segs (AState.iterator (lv 0 (L ++ parPieces sp tks)))),
          { l with attrList := lv 0 (L ++ parPieces sp tks) }) ∧
      LayoutR (hyOf l) (fun f p s r => Chosen F m W (okRatio l.toOptions) (syms (parBlocks sp tks)) f p s r ∧
        Wanted (Acceptable m W (okRatio l.toOptions)) (looseness F m W) (FillsLine m W) (syms (parBlocks sp tks)) want f p s r)
        false true (syms (parBlocks sp tks)) lines := by
  obtain ⟨T, hTd⟩ : ∃ T, T = parNodes l m L.length (parBlocks sp tks) := ⟨_, rfl⟩
  have hT : Para l m T := hTd ▸ para_parNodes hs L.length (parBlocks sp tks) (noSoft_par sp tks)
  have hG : Gaps T := hTd ▸ gaps_parNodes _ _
  have hsy : symsT T = syms (parBlocks sp tks) := by rw [hTd]; exact symsT_parNodes _ _
  rw [← hTd] at hw
  have hroom : Room m T W := ⟨by rw [hsy]; exact hB⟩
  have hstart' : StartsWithPart (symsT T) := by rw [hsy]; exact hstart
  have hsl : startLine (syms (parBlocks sp tks)) = syms (parBlocks sp tks) := by
    obtain ⟨t, r, e⟩ := hstart; rw [e]; rfl
  obtain ⟨act, h1, h2, h3⟩ := align_eq hsp hs tokens tks hst hne L hL maxWidth T hTd
  clear hst hne
  -- the search
  have hslt : findStartNode (nds T) 0 < T.length := by
    have := (para_start hT).1
    simpa [nds] using this
  have htl : (T.take (findStartNode (nds T) 0)).length = findStartNode (nds T) 0 := by simp; omega
  obtain ⟨act', k1, k2⟩ := loop_pref hs hT hroom (rootNB_of_start hT hstart') ht htame hpos rt hrt (T.drop (findStartNode (nds T) 0))
    (T.take (findStartNode (nds T) 0)) [rootPoint] (by simp) (by
      intro e; have := congrArg List.length e; simp at this; omega) (by omega) (by
      rw [htl]; exact inv_root hs hT hroom) (pinv_root rt)
  rw [htl] at k1
  have e1 : (T.take (findStartNode (nds T) 0)).getLast?.map TN.node =
      (if findStartNode (nds T) 0 = 0 then none else (nds T)[findStartNode (nds T) 0 - 1]?) := by
    by_cases e : findStartNode (nds T) 0 = 0
    · rw [e]; simp
    · rw [if_neg e, List.getLast?_eq_getElem?, htl, List.getElem?_take]
      rw [if_pos (by omega)]
      simp [nds]
  have e2 : nds (T.drop (findStartNode (nds T) 0)) = (nds T).drop (findStartNode (nds T) 0) := by simp [nds]
  have e3 : sumAt (nds T) (findStartNode (nds T) 0) = Sums.zero := by
    have hwT := Room.width hs hroom
    rw [sumAt_sumsT hs hT hwT, List.drop_of_length_le (by omega)]; rfl
  rw [e1, e2, e3, ← hW, h1] at k1
  simp only [Except.ok.injEq] at k1
  subst k1
  cases hh : act.head? with
  | none =>
    left
    rw [h3, hh]
  | some a =>
    right
    obtain ⟨hch, hposa⟩ := h2 a (List.mem_of_mem_head? hh)
    obtain ⟨t1, t2, t3⟩ := k2 a hh
    obtain ⟨pts, hp1, hp2⟩ := chain_path_tight (T := T) hch a.toPoint a.previous [] rfl t1 t2 (Path.nil _)
    rw [List.append_nil] at hp1
    simp only [hh] at h3
    rw [hp1] at h3
    have hz := chain_zero hch
    have hTl : (nds T).length = T.length := by simp [nds]
    have hlast : ∀ q, pts.getLast? = some q → q.position + 1 = T.length := by
      intro q hq
      have e : (rootPoint.toPoint :: pts).getLast? = some a.toPoint := by rw [← hp1]; simp
      cases pts with
      | nil => simp at hq
      | cons b bs =>
        rw [List.getLast?_cons_cons, hq] at e
        simp only [Option.some.injEq] at e
        rw [e]; omega
    have hne' : pts ≠ [] := by
      rintro rfl
      have e := congrArg List.getLast? hp1
      simp at e
      have : a.position = 0 := by rw [e]; rfl
      have := (para_start hT).2
      obtain ⟨c, y, w, hc, hy, _⟩ := first_box hT hstart'
      have hTlen : T.length = 1 := by omega
      have hlen1 : T.length = c.length + (w.length + 1) := by rw [hc]; simp
      have hc0 : c = [] := List.eq_nil_of_length_eq_zero (by omega)
      have hw0 : w = [] := List.eq_nil_of_length_eq_zero (by omega)
      have := ((hT.facts c y w hc).last hw0).2.1
      rw [this] at hy; cases hy
    have hin : ∀ q ∈ pts, q ∈ a.toPoint :: a.previous := by
      intro q hq
      have : q ∈ (a.toPoint :: a.previous).reverse := by rw [hp1]; simp [hq]
      exact List.mem_reverse.mp this
    have hpath := (hp2.ends (L := fun q => q.position + 1 = T.length) hlast).and
      (Q := fun q => q.ratio = zero ∧ (q.position = 0 ∨ PrefAt rt l m T W q))
      (fun q hq => ⟨(hz q (hin q hq)).2, t3 q (hin q hq)⟩)
    have hlay := lines_layout hs hT.facts (T := T) (I := fun first p => if first then p = rootPoint.toPoint else TotAt m T p)
      (P := fun f p s r => Chosen F m W (okRatio l.toOptions) (symsT T) f p s r ∧
        Wanted (Acceptable m W (okRatio l.toOptions)) (looseness F m W) (FillsLine m W) (symsT T) want f p s r)
      (o := l.toOptions) (ideal := l.scale maxWidth) false
      (fun p q h => h.1.1.1) (fun p q h => h.2.1)
      (fun p q h => by
        simp only [Bool.false_eq_true, if_false]
        exact step_tot hs hT hroom h.1.1.1)
      (by
        intro first p q c d x v hi hpq hc hpc hbox hd hq hcut
        have hqtot := step_tot hs hT hroom hpq.1.1.1
        obtain ⟨u', x', v', k1, k2, k3, k4, k5, k6⟩ := hpq.1.1.1
        have hul : u'.length = (c ++ d).length := by rw [← hq, k6]; rfl
        have hnd : nds T = nds (c ++ d) ++ x.node :: nds v := by rw [hc]; simp [nds]
        have hu' : u' = nds (c ++ d) := (List.append_inj (k1.symm.trans hnd) (by rw [hul]; simp [nds])).1
        have hx' : x' = x.node := by
          have e1 : (nds T)[u'.length]? = some x' := by rw [k1]; simp
          have e2 : (nds T)[(c ++ d).length]? = some x.node := by rw [hc]; simp [nds]
          rw [hul, e2] at e1
          exact (Option.some.inj e1).symm
        subst hx'
        have hlegal : LegalAt ((c ++ d).getLast?.map TN.node) x.node := by
          rw [hu'] at k2
          have : (nds (c ++ d)).getLast? = (c ++ d).getLast?.map TN.node := by unfold nds; exact List.getLast?_map
          rw [← this]; exact k2
        obtain ⟨y, d', rfl, hy⟩ := hd
        have hTc : T = c ++ y :: (d' ++ x :: v) := by rw [hc]; simp
        have hstart2 : findStartNode (nds T) 0 ≤ c.length := by
          have := findStartNode_le_box c y (d' ++ x :: v) 0 (Or.inl hy)
          rw [← hTc] at this; omega
        have hptot : p.totals = if first then Sums.zero else sumsT m (c.drop (findStartNode (nds T) 0)) := by
          cases first with
          | true => simp only [if_true] at hi ⊢; rw [hi]; rfl
          | false =>
            simp only [Bool.false_eq_true, if_false] at hi ⊢
            exact hi.2 c y _ hTc hpc hbox (Or.inl hy)
        have hr := ratio_at hs hT hroom (o := l.toOptions) c (y :: d') x v hc hstart2 hcut first p [] hptot _ _ rfl rfl
        rw [hul, hW] at k5
        have hfe : FeasAt l m T W first c (y :: d') x v := (feas_iff ht _ rfl _ _ _ _ (by have := hr.2.1; rw [abs_le] at this; exact this.2) hr.2.2 hr.1).mp k5
        have hf0 : first = true → ∀ z ∈ c, z.node.kind ≠ .box := by
          intro e
          subst e
          simp only [if_true] at hi
          rw [hi] at hbox
          exact hbox
        have hcls : q.fitness = newFitnessClass (ratioAt m T W first c (y :: d') x v : F) := by
          rw [k6, hul, hW]
          show (ctxAt l.toOptions (nds T) (Arith.ofInt W) (c ++ y :: d').length x.node).cls ⟨p, []⟩ = _
          unfold Ctx.cls
          rw [hr.1]
          rfl
        have hpref : PrefAt rt l m T W q := by
          rcases hpq.2.2 with e | e
          · exfalso; rw [hq] at e; simp at e
          · exact e
        have hTlen : T.length = (c ++ y :: d').length + (v.length + 1) := by rw [hc]; simp; omega
        have hend : (∃ z ∈ v, z.node.kind = .box) ∨ v = [] := by
          rcases hpq.1.2 with e | ⟨r, er⟩
          · right
            rw [hq] at e
            exact List.eq_nil_of_length_eq_zero (by omega)
          · left
            obtain ⟨c0, y0, w0, i1, i2, i3, i4⟩ := er.2.1
            have e1 : T[c0.length]? = some y0 := by rw [i1]; simp
            rw [hq] at i3
            rw [hc, List.getElem?_append_right i3] at e1
            have hm : y0 ∈ x :: v := List.mem_of_getElem? e1
            rw [List.mem_cons] at hm
            rcases hm with rfl | hm
            · exfalso
              rcases hlegal with ⟨hk, _⟩ | ⟨hk, _⟩ <;> rw [i2] at hk <;> cases hk
            · exact ⟨y0, hm, i2⟩
        refine ⟨⟨acceptable_of_feas hT hstart' first c _ x v hc y d' rfl hy hf0 hcut hfe,
          earliest_of_early hs hT hroom hstart' first c _ x v hc y d' rfl hy hpc hbox hf0 hq hcut hfe hcls hpq.1.1.2.2, ?_⟩,
          wanted_of_pref hs hT hroom hstart' hw first c _ x v hc y d' rfl hy hf0 hq hlegal hcut hfe hcls hpref hend⟩
        intro t hst
        refine ends_of_first hs hT hG hstart' first c _ x v hc y d' rfl hy hf0 hq hcut hfe ?_ t hst
        rcases hpq.1.2 with e | ⟨r, er⟩
        · exfalso
          have hv : v = [] := by
            rw [hq] at e
            exact List.eq_nil_of_length_eq_zero (by omega)
          subst hv
          have := ((hT.facts _ x [] hc).last rfl).1
          simp [stopSym, this, symsT] at hst
        · rw [hW] at er
          exact first_of_early hs hT hroom ht er.1 er.2.1 hqtot er.2.2)
      (by
        intro _ p q h
        exact h.1.1.2.1) pts rootPoint.toPoint true hpath (by simp) (by
        show 0 < T.length
        omega) hne' hlast
    have hpos0 : (rootPoint : BreakPoint F).toPoint.position = 0 := rfl
    rw [hpos0] at hlay
    rcases hlay with ⟨he, _⟩ | ⟨segs, lines, g1, g2, g3, g4, g5⟩
    · cases he
    · rw [List.drop_zero, hsy, hsl] at g2
      refine ⟨segs, lines, g3, ?_, ?_, g2⟩
      · rw [← hTd]; exact g5
      · rw [h3]
        unfold render
        simp only [List.tail_cons]
        rw [g1, ok_bind, renderLoop_eq hs hg _ segs (fun x hx => rend_of_facts hT x (g5 x hx))]
        rfl

/-! ## Escape-free paragraphs -/

omit [Arith F] [Laws F] in
theorem layoutR_imp {hy : Sym → List Rune} {P Q : Bool → List Sym → Option Sym → List Sym → Prop} {blank first : Bool}
    {ss : List Sym} {ls : List Line} (hi : ∀ f p s r, P f p s r → Q f p s r) (h : LayoutR hy P blank first ss ls) :
    LayoutR hy Q blank first ss ls := by
  induction h with
  | last p a b => exact .last p a (hi _ _ _ _ b)
  | brk p s x a b c d _ ih => exact .brk p s x a b c (hi _ _ _ _ d) ih
  | blankLine h _ ih => exact .blankLine h ih
  | lastBlank h => exact .lastBlank h
  | blankAfter p h a b _ ih => exact .blankAfter p h a (hi _ _ _ _ b) ih

omit [Arith F] [Laws F] in
theorem layout_of_laid {hy : Sym → List Rune} {P : Bool → List Sym → Option Sym → List Sym → Prop}
    {Q : Bool → List Sym → Option Sym → Prop} {first : Bool} {ss : List Sym} {ls : List Line}
    (hi : ∀ f p s r, P f p s r → Q f p s) (h : Laid hy P first ss ls) : Layout hy Q false first ss ls := by
  induction h with
  | last p a b => exact .last p a (hi _ _ _ _ b)
  | brk p s a b c _ ih => exact .brk p s _ a b (Or.inl rfl) (hi _ _ _ _ c) ih

omit [Arith F] [Laws F] in
theorem settable_of_laid {hy : Sym → List Rune} {P : Bool → List Sym → Option Sym → List Sym → Prop} {m : Measure} {W : Int}
    {ok : Int → Int → Prop} {ss : List Sym} {ls : List Line} (hi : ∀ f p s r, P f p s r → Acceptable m W ok f p s)
    (h : Laid hy P true ss ls) : Settable m W ok ss := Layout.hy (layout_of_laid hi h)

section
variable {rt : Runtime} {env : Env} {dict : Dictionary} {opts : List (Opt F)} {text : List Rune → Int} {n : Nat}
  {l : LineBreaker F} {tokens : List (List Rune)} {maxWidth : F} {W : Int}

theorem call_walk (c : Call rt env dict opts text n l tokens maxWidth W) (hpos : 0 < W)
    (hstart : StartsWithPart (paraSyms (splitterOf env dict (defaultOptions opts)) tokens)) (want : Nat → Int)
    (L : List Piece) (hL : Plain L) (hl : l.attrList = lv 0 L)
    (hw : ∀ i c, c.toInt = want ((symsT ((parNodes l (measureOf (defaultOptions opts) text) L.length
        (parBlocks (splitterOf env dict (defaultOptions opts)) (tokens.map bare))).drop i)).length - 1) →
      (rt.order i 0).head? = some c) :
    ∃ l', leftAlignUniform rt env l tokens maxWidth = .ok (none, l') ∨
      ∃ lines, leftAlignUniform rt env l tokens maxWidth = .ok (some (lines.map (Line.text (List.replicate n 0x20))), l') ∧
        LayoutR (hyOf (new env dict opts)) (fun f p s r =>
          Chosen F (measureOf (defaultOptions opts) text) W (okRatio (defaultOptions opts))
            (paraSyms (splitterOf env dict (defaultOptions opts)) tokens) f p s r ∧
          Wanted (Acceptable (measureOf (defaultOptions opts) text) W (okRatio (defaultOptions opts)))
            (looseness F (measureOf (defaultOptions opts) text) W) (FillsLine (measureOf (defaultOptions opts) text) W)
            (paraSyms (splitterOf env dict (defaultOptions opts)) tokens) want f p s r) false true
          (paraSyms (splitterOf env dict (defaultOptions opts)) tokens) lines := by
  have hk := kept_used c.sane c.digits c.used
  have hne : tokens ≠ [] := by
    rintro rfl
    obtain ⟨t, r, e⟩ := hstart
    cases e
  have ho := hk.options
  have hsy : syms (parBlocks (splitterOf env dict (defaultOptions opts)) (tokens.map bare)) =
      paraSyms (splitterOf env dict (defaultOptions opts)) tokens := by
    rw [parBlocks_bare, syms_paraBlocks]
  have hu : Usual l.toOptions := ho ▸ usual_new c.sane
  have hhy : hyOf l = hyOf (new env dict opts) := by
    funext s; cases s <;> simp [hyOf, penOf, ho]
  have hok : okRatio l.toOptions = okRatio (defaultOptions opts) := by rw [ho]; rfl
  have := align_walk (rt := rt) c.walks (hk.splits c.sane) (hk.setup c.sane) tokens _ (strips_all rt c.digits tokens c.escapeFree) hne L hl
    maxWidth W (by rw [ho]; exact c.scaled) hpos (List.replicate n 0x20) (by rw [ho]; exact pads_new c.sane) hu.tol
    (hu.tame (hk.setup c.sane)) (by rw [hsy]; exact hstart) (by rw [hsy]; exact c.exact) want hw
  rw [hsy, hok] at this
  rcases this with h2 | ⟨segs, lines, h3, h5, h6, h8⟩
  · exact ⟨_, Or.inl h2⟩
  · rw [render_bare (hk.setup c.sane) _ tokens L hL _ segs lines h3 h5] at h6
    exact ⟨_, Or.inr ⟨lines, h6, hhy ▸ h8⟩⟩

/-- The lines chosen, whatever the walk. -/
theorem call_chosen (c : Call rt env dict opts text n l tokens maxWidth W) (hpos : 0 < W)
    (hstart : StartsWithPart (paraSyms (splitterOf env dict (defaultOptions opts)) tokens)) :
    ∃ l', leftAlignUniform rt env l tokens maxWidth = .ok (none, l') ∨
      ∃ lines, leftAlignUniform rt env l tokens maxWidth = .ok (some (lines.map (Line.text (List.replicate n 0x20))), l') ∧
        LayoutR (hyOf (new env dict opts)) (Chosen F (measureOf (defaultOptions opts) text) W (okRatio (defaultOptions opts))
            (paraSyms (splitterOf env dict (defaultOptions opts)) tokens)) false true
          (paraSyms (splitterOf env dict (defaultOptions opts)) tokens) lines := by
  obtain ⟨L, hL, hl⟩ := (kept_used c.sane c.digits c.used).plain
  obtain ⟨l', h | ⟨lines, h1, h2⟩⟩ := call_walk c hpos hstart (fun _ => -1) L hL hl (by
    intro i c h
    cases c <;> simp [Class.toInt] at h)
  · exact ⟨l', Or.inl h⟩
  · exact ⟨l', Or.inr ⟨lines, h1, layoutR_imp (fun _ _ _ _ h => h.1) h2⟩⟩

/-- The classes of fitness in order, from the one with the number `k`. -/
def turned (k : Int) : List Class :=
  if k = 1 then [.one, .two, .three, .zero] else if k = 2 then [.two, .three, .zero, .one]
  else if k = 3 then [.three, .zero, .one, .two] else [.zero, .one, .two, .three]

theorem turned_head (c : Class) : (turned c.toInt).head? = some c := by cases c <;> rfl

theorem turned_mem (k : Int) (c : Class) : c ∈ turned k := by
  unfold turned
  split
  · cases c <;> simp
  · split
    · cases c <;> simp
    · split <;> cases c <;> simp

theorem turned_turns (k : Int) : ∃ a b, [Class.zero, .one, .two, .three] = a ++ b ∧ turned k = b ++ a := by
  unfold turned
  split
  · exact ⟨[.zero], [.one, .two, .three], rfl, rfl⟩
  · split
    · exact ⟨[.zero, .one], [.two, .three], rfl, rfl⟩
    · split
      · exact ⟨[.zero, .one, .two], [.three], rfl, rfl⟩
      · exact ⟨[], [.zero, .one, .two, .three], rfl, rfl⟩

/-- A walk for each setting that may be chosen. -/
theorem call_every (c : Call rt env dict opts text n l tokens maxWidth W) (hpos : 0 < W)
    (hstart : StartsWithPart (paraSyms (splitterOf env dict (defaultOptions opts)) tokens)) {hy : Sym → List Rune}
    (hhy : ∀ s, (∀ t, s ≠ .part t) → hyOf (new env dict opts) s = hy s) (hgap : hy .gap = []) (ls : List Line)
    (hls : Laid hy (Chosen F (measureOf (defaultOptions opts) text) W (okRatio (defaultOptions opts))
      (paraSyms (splitterOf env dict (defaultOptions opts)) tokens)) true
      (paraSyms (splitterOf env dict (defaultOptions opts)) tokens) ls) :
    ∃ (rt' : Runtime) (l' : LineBreaker F), (∀ i n, ∃ a b, [Class.zero, .one, .two, .three] = a ++ b ∧ rt'.order i n = b ++ a) ∧
      rt'.spare = rt.spare ∧
      leftAlignUniform rt' env l tokens maxWidth = .ok (some (ls.map (Line.text (List.replicate n 0x20))), l') := by
  obtain ⟨L, hL, hl⟩ := (kept_used c.sane c.digits c.used).plain
  obtain ⟨want, hwant⟩ := laid_want (looseness F (measureOf (defaultOptions opts) text) W) hls
  obtain ⟨rt', hrt'⟩ : ∃ rt' : Runtime, rt' = ⟨fun i _ => turned (want ((symsT ((parNodes l (measureOf (defaultOptions opts) text)
      L.length (parBlocks (splitterOf env dict (defaultOptions opts)) (tokens.map bare))).drop i)).length - 1)), rt.spare⟩ := ⟨_, rfl⟩
  have c' : Call rt' env dict opts text n l tokens maxWidth W :=
    ⟨c.used, c.sane, fun i n c => by rw [hrt']; exact turned_mem _ c, c.digits, c.escapeFree, c.scaled, c.exact⟩
  obtain ⟨l', h⟩ := call_walk c' hpos hstart want L hL hl (by
    intro i c h
    rw [hrt']
    simp only
    rw [← h]; exact turned_head c)
  refine ⟨rt', l', fun i n => by rw [hrt']; exact turned_turns _, by rw [hrt'], ?_⟩
  have hset : Settable (measureOf (defaultOptions opts) text) W (okRatio (defaultOptions opts))
      (paraSyms (splitterOf env dict (defaultOptions opts)) tokens) := settable_of_laid (fun _ _ _ _ h => h.1) hls
  rcases h with h | ⟨lines, h1, h2⟩
  · exfalso
    obtain ⟨l'', g | g⟩ := call_exact c' hpos hstart
    · exact g.1 hset
    · obtain ⟨_, _, _, g, _⟩ := g
      rw [h] at g
      cases g
  · have := laid_unique (hy := hy) (full := FillsLine (measureOf (defaultOptions opts) text) W) (fun f p s r h => h.1) (fun f p s r h => h.1) ?_ hwant (laid_of_layoutR hhy hgap h2)
    · rw [this]; exact h1
    · intro f p s r f' p' ha hb hp hp' hl hl'
      rcases hb.2 f p hl hp ha.1.1 ha.2 with e | ⟨rfl, hfull, t, hlast⟩
      · rw [ha.2, e]
      · have := (ha.1.2.2 .gap rfl f' p' .gap r (by simpa using hl') hp' (by simp) hb.1.1 rfl).2 rfl rfl ⟨t, hlast⟩ hfull
        unfold FillsLine at this hfull
        unfold looseness
        simp [this, hfull]

end

end Verif.Proofs.LB
