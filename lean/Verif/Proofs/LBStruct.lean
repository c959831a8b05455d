import Verif.Proofs.LBNum

/-! # Structure of the lines of a paragraph -/

set_option linter.unusedSectionVars false
set_option linter.unusedSimpArgs false

namespace Verif.Proofs.LB
open Verif.Go Verif.Model Verif.Model.LB Verif.Spec Verif.Spec.LB

variable {F : Type} [Arith F]

/-! ## The first block -/

/-- The first block is not a hyphenation point. -/
def NoSoft (bs : List Block) : Prop := bs.head?.map Block.syms ≠ some [.soft]

theorem noSoft_append {a b : List Block} (ha : NoSoft a) (hb : NoSoft b) : NoSoft (a ++ b) := by
  cases a with
  | nil => simpa using hb
  | cons x a => simpa [NoSoft] using ha

theorem noSoft_flatMap {α : Type} (f : α → List Block) (xs : List α) (h : ∀ x, NoSoft (f x)) :
    NoSoft (xs.flatMap f) := by
  induction xs with
  | nil => simp [NoSoft]
  | cons x xs ih => exact noSoft_append (h x) ih

theorem noSoft_token (sp : Splitter) (t : List Rune) : NoSoft (tokenBlocks sp t) := by
  refine noSoft_flatMap _ _ (fun p => ?_)
  unfold chunkBlocks
  split
  · simp [NoSoft, Block.syms]
  · split
    · simp [NoSoft, Block.syms]
    · refine noSoft_flatMap _ _ (fun w => ?_)
      unfold wordBlocks
      split
      · simp [NoSoft, Block.syms]
      · cases h : sp.syllables w with
        | nil => simp [NoSoft]
        | cons a b => cases b <;> simp [NoSoft, Block.syms]

theorem noSoft_spans (sp : Splitter) (xs : List Span) : NoSoft (spansBlocks sp xs) :=
  noSoft_flatMap _ _ (fun _ => noSoft_token sp _)

theorem noSoft_par (sp : Splitter) (tks : List (List Span)) : NoSoft (parBlocks sp tks) := by
  cases tks with
  | nil => simp [NoSoft, parBlocks]
  | cons t tks =>
    cases tks with
    | nil => exact noSoft_spans sp t
    | cons u us => exact noSoft_append (noSoft_spans sp t) (by simp [NoSoft, Block.syms])

variable [Laws F]

/-- What the proofs use of the width. -/
structure Room (m : Measure) (T : List (TN F)) (W : Int) : Prop where
  bound : lineWidth m (symsT T) + m.hyphen + |W| ≤ Laws.bound F

section
variable {l : LineBreaker F} {m : Measure} (hs : Setup l m) {T : List (TN F)} (hT : Para l m T) {W : Int} (hW : Room m T W)
include hs hT hW

omit hT in
theorem Room.width : lineWidth m (symsT T) ≤ Laws.bound F := by
  have := hW.bound
  have := hs.hyphen_nonneg
  have := abs_nonneg W
  omega

/-- The totals of a break point are the sums at the next box. -/
def TotAt (m : Measure) (T : List (TN F)) (p : Point F) : Prop :=
  findStartNode (nds T) 0 ≤ p.position ∧ ∀ c y w, T = c ++ y :: w → p.position ≤ c.length →
    (∀ z ∈ c.drop p.position, z.node.kind ≠ .box) → (y.node.kind = .box ∨ w = []) →
    p.totals = sumsT m (c.drop (findStartNode (nds T) 0))

theorem step_tot {o : Options F} {ideal : F} {p q : Point F} (h : Step o (nds T) ideal p q) : TotAt m T q := by
  obtain ⟨u', x', v', h1, h2, h3, h4, h5, h6⟩ := h
  have hpos : q.position = u'.length := by rw [h6]; rfl
  refine ⟨by omega, ?_⟩
  intro c y w hc hpc hbox hy
  have hT0 : q.totals = sumFromLoop true ((nds T).drop u'.length) (sumAt (nds T) u'.length) := by rw [h6]; rfl
  rw [hT0, sumAt_sumsT hs hT (Room.width hs hW)]
  have e1 : (nds T).drop u'.length = nds (T.drop u'.length) := by simp [nds]
  rw [e1]
  rw [hpos] at hpc hbox
  have e2 : T.drop u'.length = c.drop u'.length ++ y :: w := by
    rw [hc, List.drop_append_of_le_length hpc]
  have e3 : T.take u'.length = c.take u'.length := by
    rw [hc, List.take_append_of_le_length hpc]
  rw [sumFromLoop_sumsT hs hT (Room.width hs hW) (c.take (findStartNode (nds T) 0)) _ (T.drop u'.length) ?_
    (c.drop u'.length) y w e2 hbox hy true]
  · congr 1
    have hlc : u'.length ≤ c.length := hpc
    rw [e3, ← List.drop_append_of_le_length (by simp; omega), List.take_append_drop]
  · rw [e3, e2]
    have e4 : c.take (findStartNode (nds T) 0) = (c.take u'.length).take (findStartNode (nds T) 0) := by
      rw [List.take_take, Nat.min_eq_left h3]
    rw [e4, List.take_append_drop, ← List.append_assoc, List.take_append_drop]
    exact hc

/-- The ratio of a line from `p` to the node `x`; `c` ends where the text of the line starts. -/
theorem ratio_at {o : Options F} (c d : List (TN F)) (x : TN F) (v : List (TN F)) (h : T = c ++ d ++ x :: v)
    (hst : findStartNode (nds T) 0 ≤ c.length) (hcut : Cut l m (sumSt (c ++ d)) x v) (first : Bool) (p : Point F)
    (pr : List (Point F))
    (hp : p.totals = if first then Sums.zero else sumsT m (c.drop (findStartNode (nds T) 0)))
    (w st : Int)
    (hw : w = lineWidth m (symsT d) + endWidth m (stopSym x v) +
      if first then lineWidth m (symsT (c.drop (findStartNode (nds T) 0))) else 0)
    (hst' : st = sumSt d + if first then sumSt (c.drop (findStartNode (nds T) 0)) else 0) :
    (ctxAt o (nds T) (Arith.ofInt W) (c ++ d).length x.node).ratio ⟨p, pr⟩ =
        (if w < W then (if 0 < st then Arith.div (Arith.ofInt (W - w)) (Arith.ofInt st) else infinity)
      else if W < w then infinity else zero) ∧ |st| ≤ Laws.bound F ∧ |W - w| ≤ Laws.bound F := by
  obtain ⟨s, hs0⟩ : ∃ s, s = findStartNode (nds T) 0 := ⟨_, rfl⟩
  rw [← hs0] at hst hp hw hst'
  have hwT := Room.width hs hW
  have hsum : (ctxAt o (nds T) (Arith.ofInt W) (c ++ d).length x.node).sum = sumsT m (c.drop s ++ d) := by
    simp only [ctxAt]
    rw [sumAt_sumsT hs hT hwT, ← hs0]
    congr 1
    rw [h, List.take_left, List.drop_append_of_le_length hst]
  have b1 := part_bounds hs hT hwT (c.take s) (c.drop s) (d ++ x :: v) (by rw [List.take_append_drop, h]; simp)
  have b2 := part_bounds hs hT hwT (c.take s) (c.drop s ++ d) (x :: v) (by
    rw [← List.append_assoc, List.take_append_drop, h])
  have b3 := part_bounds hs hT hwT c d (x :: v) h
  have hf := hT.facts (c ++ d) x v h
  have hend := cut_end hcut
  have hend0 : 0 ≤ endWidth m (stopSym x v) ∧ endWidth m (stopSym x v) ≤ m.hyphen := by
    have := hs.hyphen_nonneg
    unfold endWidth
    split
    · split <;> omega
    · omega
  have hz : |(0 : Int)| ≤ Laws.bound F := small 0 (by decide)
  -- all widths
  have n1 := lineWidth_nonneg hs (symsT (c.drop s))
  have n2 := lineWidth_nonneg hs (symsT d)
  have htot : lineWidth m (symsT (c.drop s)) + lineWidth m (symsT d) ≤ lineWidth m (symsT T) := by
    have e : T = c.take s ++ c.drop s ++ d ++ x :: v := by rw [List.take_append_drop]; exact h
    have n3 := lineWidth_nonneg hs (symsT (c.take s))
    have n4 := lineWidth_nonneg hs (symsT (x :: v))
    have := congrArg (fun t => lineWidth m (symsT t)) e
    simp only [symsT_append, lineWidth_append] at this
    omega
  have hB := hW.bound
  have hWn := abs_nonneg W
  have hbw : 0 ≤ w ∧ w ≤ lineWidth m (symsT T) + m.hyphen := by
    cases first
    · simp only [Bool.false_eq_true, if_false] at hw
      omega
    · simp only [if_true] at hw
      omega
  have h9 : |W - w| ≤ Laws.bound F := by
    rw [abs_le]
    rcases abs_cases W with ⟨e, _⟩ | ⟨e, _⟩ <;> rw [e] at hB <;> constructor <;> omega
  have habsW : |W| ≤ Laws.bound F := by
    have := lineWidth_nonneg hs (symsT T)
    have := hs.hyphen_nonneg
    omega
  have hstb : |st| ≤ Laws.bound F := by
    rw [hst']
    cases first
    · simpa using b3.2
    · rw [sumSt_append] at b2
      simp only [if_true]
      rw [add_comm]; exact b2.2
  refine ⟨?_, hstb, h9⟩
  unfold Ctx.ratio
  rw [hsum]
  have hxw : x.node.kind = .penalty → x.w = endWidth m (stopSym x v) := by
    intro hk; rw [← hend, if_pos hk]
  have e1 : lineWidth m (symsT (c.drop s ++ d)) = lineWidth m (symsT (c.drop s)) + lineWidth m (symsT d) := by
    rw [symsT_append, lineWidth_append]
  have e2 : sumSt (c.drop s ++ d) = sumSt (c.drop s) + sumSt d := sumSt_append _ _
  have hnode : (ctxAt o (nds T) (Arith.ofInt W) (c ++ d).length x.node).node = x.node := rfl
  have hid : (ctxAt o (nds T) (Arith.ofInt W) (c ++ d).length x.node).ideal = Arith.ofInt W := rfl
  rw [hnode, hid]
  show adjustmentRatio p.totals x.node _ _ = _
  rw [hp]
  cases first
  · simp only [Bool.false_eq_true, if_false, add_zero] at hw hst' ⊢
    have := adjustmentRatio_int (F := F) (lineWidth m (symsT (c.drop s))) (sumSt (c.drop s)) (lineWidth m (symsT (c.drop s ++ d)))
      (sumSt (c.drop s ++ d)) W x hf.coh b1.1 b1.2 b2.1 b2.2 (by rw [e1, add_sub_cancel_left]; exact b3.1)
      (by rw [e2, add_sub_cancel_left]; exact b3.2) habsW (by
        intro hk
        rw [hxw hk, e1, add_sub_cancel_left, abs_le, abs_le]
        refine ⟨⟨?_, ?_⟩, ?_, ?_⟩ <;> omega) w (by rw [hw, hend, e1]; omega) h9
    unfold sumsT
    rw [this, e2, hst', add_sub_cancel_left]
  · simp only [if_true] at hw hst' ⊢
    have := adjustmentRatio_int (F := F) 0 0 (lineWidth m (symsT (c.drop s ++ d)))
      (sumSt (c.drop s ++ d)) W x hf.coh hz hz b2.1 b2.2 (by simpa using b2.1)
      (by simpa using b2.2) habsW (by
        intro hk
        rw [hxw hk, e1, sub_zero, abs_le, abs_le]
        refine ⟨⟨?_, ?_⟩, ?_, ?_⟩ <;> omega) w (by rw [hw, hend, e1]; omega) h9
    unfold sumsT Sums.zero
    rw [this, e2, hst', sub_zero, add_comm (sumSt d)]

end

/-! ## The search -/

section
variable {l : LineBreaker F} {m : Measure} (hs : Setup l m) {T : List (TN F)} (hT : Para l m T)
include hT

theorem para_h0 : ∀ x, (nds T)[0]? = some x → ¬ LegalAt none x := by
  intro x hx hl
  have hx' : T.head?.map TN.node = some x := by
    rw [← hx]; cases T <;> rfl
  cases hh : T.head? with
  | none => rw [hh] at hx'; cases hx'
  | some y =>
    rw [hh] at hx'
    simp only [Option.map_some, Option.some.injEq] at hx'
    subst hx'
    rcases hl with ⟨_, h⟩ | ⟨h, h2⟩
    · simp at h
    · rw [(hT.head y hh h).2] at h2
      simp [infinity, eq_small (F := F) 10000 10000 (by decide) (by decide)] at h2

theorem para_last : ∃ z, (nds T).getLast? = some z ∧ z.isForcedBreak = true ∧ Arith.eq z.penalty infinity = false := by
  obtain ⟨u, hu⟩ := hT.last
  refine ⟨newPenalty zero minusInfinity true, ?_, ?_, ?_⟩
  · rw [hu]; simp [nds, finT]
  · simp [Node.isForcedBreak, newPenalty, minusInfinity, eq_small (F := F) (-10000) (-10000) (by decide) (by decide)]
  · simp [newPenalty, minusInfinity, infinity, eq_small (F := F) (-10000) 10000 (by decide) (by decide)]

theorem para_start : findStartNode (nds T) 0 < (nds T).length ∧ 1 < (nds T).length := by
  obtain ⟨u, hu⟩ := hT.last
  have h := findStartNode_le_box (u ++ [⟨newGlue zero infinity zero, none, 0, 10000⟩])
    ⟨newPenalty zero minusInfinity true, none, 0, 0⟩ [] 0 (Or.inr (by
      simp [Node.isForcedBreak, newPenalty, minusInfinity, eq_small (F := F) (-10000) (-10000) (by decide) (by decide)]))
  have e : T = (u ++ [⟨newGlue zero infinity zero, none, 0, 10000⟩]) ++
      ⟨newPenalty zero minusInfinity true, none, 0, 0⟩ :: [] := by rw [hu]; simp [finT]
  rw [← e] at h
  have hl := congrArg List.length e
  simp only [List.length_append, List.length_cons, List.length_nil] at hl h
  have : (nds T).length = T.length := by simp [nds]
  omega

end

/-- The result of `LeftAlignUniform`, from the active break points at the end of the search. -/
theorem align_eq {rt : Runtime} {env : Env} {l : LineBreaker F} {sp : Splitter} (hsp : Splits env l sp)
    {m : Measure} (hs : Setup l m) (tokens : List (List Rune)) (tks : List (List Span))
    (hst : List.Forall₂ (Strips rt env) tokens tks) (hne : tokens ≠ []) (L : List Piece) (hL : l.attrList = lv 0 L)
    (maxWidth : F) (T : List (TN F)) (hT : T = parNodes l m L.length (parBlocks sp tks)) :
    ∃ act, breakLoop rt l.toOptions (nds T) (l.scale maxWidth)
        (if findStartNode (nds T) 0 = 0 then none else (nds T)[findStartNode (nds T) 0 - 1]?)
        ((nds T).drop (findStartNode (nds T) 0)) (findStartNode (nds T) 0) Sums.zero [rootPoint] = .ok act ∧
      (∀ a ∈ act, Chain l.toOptions (nds T) (l.scale maxWidth) (a.toPoint :: a.previous) ∧
        a.position + 1 = (nds T).length) ∧
      leftAlignUniform rt env l tokens maxWidth = (match act.head? with
        | none => .ok (none, { l with attrList := lv 0 (L ++ parPieces sp tks) })
        | some a => do
          let lines ← render l.toOptions (lv 0 (L ++ parPieces sp tks)) (nds T) ((a.toPoint :: a.previous).reverse)
          .ok (some lines, { l with attrList := lv 0 (L ++ parPieces sp tks) })) := by
  have hP : Para l m T := hT ▸ para_parNodes hs L.length (parBlocks sp tks) (noSoft_par sp tks)
  obtain ⟨act, h1, h2, h3⟩ := breakPoints_chain rt l.toOptions (nds T) (l.scale maxWidth) (para_h0 hP) (para_last hP)
    (para_start hP).1 (para_start hP).2
  refine ⟨act, h1, h2, ?_⟩
  unfold leftAlignUniform
  rw [leftAlignedNodes_eq hsp m tokens tks hst hne L hL, ← hT]
  simp only [ok_bind]
  have : (({ l with attrList := lv 0 (L ++ parPieces sp tks) } : LineBreaker F)).scale maxWidth = l.scale maxWidth := rfl
  rw [this, h3]
  simp only [ok_bind]
  cases act.head? with
  | none => rfl
  | some a => rfl

omit [Arith F] [Laws F] in
theorem Path.and {R : Point F → Point F → Prop} {Q : Point F → Prop} {p : Point F} {pts : List (Point F)}
    (h : Path R p pts) (hq : ∀ q ∈ pts, Q q) : Path (fun p q => R p q ∧ Q q) p pts := by
  induction h with
  | nil p => exact Path.nil _
  | cons h1 h2 ih => exact Path.cons ⟨h1, hq _ (by simp)⟩ (ih (fun q hq' => hq q (by simp [hq'])))

/-- A line fits in the width `W`. -/
def Fits (m : Measure) (W : Int) (_ : Bool) (p : List Sym) (s : Option Sym) : Prop :=
  lineWidth m p + endWidth m s ≤ W

theorem rend_of_facts {l : LineBreaker F} {m : Measure} {T : List (TN F)} (hT : Para l m T) :
    ∀ x ∈ T, Rend m x := by
  intro x hx
  obtain ⟨u, v, h⟩ := List.append_of_mem hx
  have hf := hT.facts u x v h
  have hm := hT.more u x v h
  refine ⟨hf.coh, hm.st, ?_, hf.glue, ?_⟩
  · intro hk
    obtain ⟨t, k, e, _⟩ := hf.box hk
    subst e
    exact ⟨⟨t, rfl⟩, rfl⟩
  · intro hk
    exact ⟨(hf.pen hk).1, hf.nonbox (by rw [hk]; simp)⟩

/-- **Structure**: whatever the options, a call either panics, reports that the text cannot be set, or
returns lines that set the symbols of the text in order within the width. -/
theorem align_structure {rt : Runtime} {env : Env} {l : LineBreaker F} {sp : Splitter} (hsp : Splits env l sp)
    {m : Measure} (hs : Setup l m) (tokens : List (List Rune)) (tks : List (List Span))
    (hst : List.Forall₂ (Strips rt env) tokens tks) (hne : tokens ≠ []) (L : List Piece) (hL : l.attrList = lv 0 L)
    (maxWidth : F) (W : Int) (hW : l.scale maxWidth = Arith.ofInt W) (g : List Rune) (hg : Pads l.toOptions m g)
    (ht : Arith.lt l.tolerance infinity = true)
    (hB : lineWidth m (syms (parBlocks sp tks)) + m.hyphen + |W| ≤ Laws.bound F) :
    leftAlignUniform rt env l tokens maxWidth = .error .slice ∨
    leftAlignUniform rt env l tokens maxWidth = .ok (none, { l with attrList := lv 0 (L ++ parPieces sp tks) }) ∨
    ∃ segs lines, Layout (hyOf l) (Fits m W) true true (startLine (syms (parBlocks sp tks))) lines ∧
      List.Forall₂ (LineOf l) segs lines ∧
      boxes segs.flatten = boxes (parNodes l m L.length (parBlocks sp tks)) ∧
      (∀ z ∈ segs.flatten, z ∈ parNodes l m L.length (parBlocks sp tks)) ∧
      leftAlignUniform rt env l tokens maxWidth =
        .ok (some (renderSegs l (lv 0 (L ++ parPieces sp tks)) g segs (AState.iterator (lv 0 (L ++ parPieces sp tks)))),
          { l with attrList := lv 0 (L ++ parPieces sp tks) }) := by
  obtain ⟨T, hTd⟩ : ∃ T, T = parNodes l m L.length (parBlocks sp tks) := ⟨_, rfl⟩
  have hT : Para l m T := hTd ▸ para_parNodes hs L.length (parBlocks sp tks) (noSoft_par sp tks)
  have hsy : symsT T = syms (parBlocks sp tks) := by rw [hTd]; exact symsT_parNodes _ _
  have hroom : Room m T W := ⟨by rw [hsy]; exact hB⟩
  obtain ⟨act, h1, h2, h3⟩ := align_eq hsp hs tokens tks hst hne L hL maxWidth T hTd
  rw [h3]
  cases hh : act.head? with
  | none => right; left; rfl
  | some a =>
    obtain ⟨hch, hpos⟩ := h2 a (List.mem_of_mem_head? hh)
    obtain ⟨pts, hp1, hp2⟩ := chain_path hch a.toPoint a.previous [] rfl (Path.nil _)
    rw [List.append_nil] at hp1
    simp only
    rw [hp1]
    have hz := chain_zero hch
    have hTl : (nds T).length = T.length := by simp [nds]
    have hlast : ∀ q, pts.getLast? = some q → q.position + 1 = T.length := by
      intro q hq
      have e : (rootPoint.toPoint :: pts).getLast? = some a.toPoint := by rw [← hp1]; simp
      cases pts with
      | nil => simp at hq
      | cons b bs =>
        rw [List.getLast?_cons_cons, hq] at e
        simp only [Option.some.injEq] at e
        rw [e]; omega
    have hne' : pts ≠ [] := by
      rintro rfl
      have e := congrArg List.getLast? hp1
      simp at e
      have : a.position = 0 := by rw [e]; rfl
      have := (para_start hT).2
      omega
    -- the relation between points
    have hmem : ∀ q ∈ pts, q.ratio = zero := by
      intro q hq
      refine (hz q ?_).2
      have : q ∈ (a.toPoint :: a.previous).reverse := by rw [hp1]; simp [hq]
      exact List.mem_reverse.mp this
    have hpath : Path (fun p q => Step l.toOptions (nds T) (l.scale maxWidth) p q ∧ q.ratio = zero) rootPoint.toPoint pts := by
      exact hp2.and hmem
    have hlay := lines_layout hs hT.facts (T := T) (I := fun first p => if first then p = rootPoint.toPoint else TotAt m T p)
      (P := fun f p s _ => Fits m W f p s) (o := l.toOptions) (ideal := l.scale maxWidth) true (fun p q h => h.1) (fun p q h => h.2)
      (fun p q h => by
        simp only [Bool.false_eq_true, if_false]
        exact step_tot hs hT hroom h.1)
      (by
        intro first p q c d x v hi hpq hc hpc hbox hd hq hcut
        obtain ⟨u', x', v', k1, k2, k3, k4, k5, k6⟩ := hpq.1
        have hul : u'.length = (c ++ d).length := by rw [← hq, k6]; rfl
        have hx' : x' = x.node := by
          have e1 : (nds T)[u'.length]? = some x' := by rw [k1]; simp
          have e2 : (nds T)[(c ++ d).length]? = some x.node := by rw [hc]; simp [nds]
          rw [hul, e2] at e1
          exact (Option.some.inj e1).symm
        subst hx'
        obtain ⟨y, d', rfl, hy⟩ := hd
        have hTc : T = c ++ y :: (d' ++ x :: v) := by rw [hc]; simp
        have hstart : findStartNode (nds T) 0 ≤ c.length := by
          have := findStartNode_le_box c y (d' ++ x :: v) 0 (Or.inl hy)
          rw [← hTc] at this; omega
        have hptot : p.totals = if first then Sums.zero else sumsT m (c.drop (findStartNode (nds T) 0)) := by
          cases first with
          | true => simp only [if_true] at hi ⊢; rw [hi]; rfl
          | false =>
            simp only [Bool.false_eq_true, if_false] at hi ⊢
            exact hi.2 c y _ hTc hpc hbox (Or.inl hy)
        have hr := ratio_at hs hT hroom (o := l.toOptions) c (y :: d') x v hc hstart hcut first p [] hptot _ _ rfl rfl
        rw [hul, hW] at k5
        have := feas_le ht _ rfl _ _ _ _ hr.1 k5
        unfold Fits
        have n1 := lineWidth_nonneg hs (symsT (c.drop (findStartNode (nds T) 0)))
        split at this <;> omega)
      (by simp) pts rootPoint.toPoint true hpath (by simp) (by
        show 0 < T.length
        have := (para_start hT).2
        omega) hne' hlast
    have hpos0 : (rootPoint : BreakPoint F).toPoint.position = 0 := rfl
    rw [hpos0] at hlay
    unfold render
    simp only [List.tail_cons]
    rcases hlay with ⟨_, he⟩ | ⟨segs, lines, g1, g2, g3, g4, g5⟩
    · left
      rw [he]; rfl
    · right; right
      refine ⟨segs, lines, ?_, g3, ?_, ?_, ?_⟩
      · rw [← hsy]; simpa using LayoutR.layout (Q := Fits m W) (fun _ _ _ _ h => h) g2
      · rw [← hTd]; simpa using g4
      · rw [← hTd]; exact g5
      · rw [g1, ok_bind, renderLoop_eq hs hg _ segs (fun x hx => rend_of_facts hT x (g5 x hx))]
        rfl

end Verif.Proofs.LB
