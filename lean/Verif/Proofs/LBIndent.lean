import Verif.Proofs.LBReady

/-! # Paragraphs that start with empty words -/

set_option linter.unusedSectionVars false
set_option linter.unusedSimpArgs false

namespace Verif.Proofs.LB
open Verif.Go Verif.Model Verif.Model.LB Verif.Spec Verif.Spec.LB

variable {F : Type} [Arith F] [Laws F]

/-- The nodes of `k` empty words. -/
def gapsT (l : LineBreaker F) (m : Measure) : Nat → List (TN F)
  | 0 => []
  | k + 1 => gapT l m ++ gapsT l m k

theorem gapsT_length (l : LineBreaker F) (m : Measure) (k : Nat) : (gapsT l m k).length = 3 * k := by
  induction k with
  | zero => rfl
  | succ k ih => simp only [gapsT, List.length_append, ih, gapT, List.length_cons, List.length_nil]; omega

theorem gapsT_nobox (l : LineBreaker F) (m : Measure) (k : Nat) : ∀ z ∈ gapsT l m k, z.node.kind ≠ .box := by
  induction k with
  | zero => simp [gapsT]
  | succ k ih =>
    intro z hz
    rw [gapsT, List.mem_append] at hz
    rcases hz with hz | hz
    · simp only [gapT, List.mem_cons, List.not_mem_nil, or_false] at hz
      rcases hz with rfl | rfl | rfl <;> simp [newGlue, newPenalty]
    · exact ih z hz

theorem gapsT_syms (l : LineBreaker F) (m : Measure) (k : Nat) : symsT (gapsT l m k) = List.replicate k .gap := by
  induction k with
  | zero => rfl
  | succ k ih => rw [gapsT, symsT_append, ih, List.replicate_succ]; rfl

theorem gapsT_sum (l : LineBreaker F) (m : Measure) (k : Nat) (rest : List (TN F)) : ∀ s, s ≤ 3 * k →
    sumSt ((gapsT l m k ++ rest).take s) = if s % 3 = 0 then 0 else 6 := by
  induction k with
  | zero =>
    intro s hs
    have : s = 0 := by omega
    subst this
    rfl
  | succ k ih =>
    intro s hs
    match s with
    | 0 => rfl
    | 1 => rfl
    | 2 => rfl
    | s + 3 =>
      have e : (gapsT l m (k + 1) ++ rest).take (s + 3) = gapT l m ++ (gapsT l m k ++ rest).take s := by
        rw [gapsT, List.append_assoc]; rfl
      rw [e, sumSt_append, ih s (by omega), show (s + 3) % 3 = s % 3 by omega]
      have : sumSt (gapT l m : List (TN F)) = 0 := rfl
      rw [this]; split <;> rfl

theorem gapsT_drop (l : LineBreaker F) (m : Measure) (k : Nat) : ∀ s, s ≤ 3 * k →
    symsT ((gapsT l m k).drop s) = List.replicate (k - s / 3) .gap := by
  induction k with
  | zero =>
    intro s hs
    have : s = 0 := by omega
    subst this
    rfl
  | succ k ih =>
    intro s hs
    have h1 : ∀ t : List (TN F), (t = gapT l m ∨ t = (gapT l m).drop 1 ∨ t = (gapT l m).drop 2) →
        symsT (t ++ gapsT l m k) = List.replicate (k + 1) .gap := by
      intro t ht
      have : symsT t = [.gap] := by rcases ht with rfl | rfl | rfl <;> rfl
      rw [symsT_append, this, gapsT_syms, List.singleton_append, List.replicate_succ]
    match s with
    | 0 => exact h1 _ (Or.inl rfl)
    | 1 => exact h1 _ (Or.inr (Or.inl rfl))
    | 2 => exact h1 _ (Or.inr (Or.inr rfl))
    | s + 3 =>
      have e : (gapsT l m (k + 1)).drop (s + 3) = (gapsT l m k).drop s := rfl
      rw [e, ih s (by omega), show k + 1 - (s + 3) / 3 = k - s / 3 by omega]

theorem lineWidth_gaps (m : Measure) : ∀ a : List Sym, (∀ s ∈ a, s = .gap) → lineWidth m a = (a.length : Int) * m.space
  | [], _ => by simp [lineWidth]
  | x :: a, hx => by
    rw [hx x (by simp), lineWidth, lineWidth_gaps m a (fun s hs => hx s (by simp [hs])), List.length_cons, Int.natCast_succ,
      Int.add_mul, Int.one_mul, Int.add_comm]

theorem gapsT_start (l : LineBreaker F) (m : Measure) (k : Nat) (rest : List (TN F)) (i : Nat) :
    findStartNode (nds (gapsT l m k ++ rest)) i = findStartNode (nds rest) (i + 2 * k) := by
  induction k generalizing i with
  | zero => rfl
  | succ k ih =>
    have e : nds (gapsT l m (k + 1) ++ rest) = newGlue zero l.glueStretch zero :: newPenalty zero zero false ::
        newGlue l.spaceWidth (Arith.neg l.glueStretch) zero :: nds (gapsT l m k ++ rest) := rfl
    rw [e, findStartNode]
    simp only [newGlue]
    rw [findStartNode]
    simp only [newPenalty]
    have hz : ¬ (Arith.eq (newPenalty (zero : F) zero false).penalty minusInfinity = true) := by
      simp [newPenalty, zero, minusInfinity, eq_small (F := F) 0 (-10000) (by decide) (by decide)]
    refine (if_neg hz).trans ?_
    rw [findStartNode]
    simp only
    rw [ih]
    congr 1
    omega

section
variable {l : LineBreaker F} {m : Measure} (hs : Setup l m) {T : List (TN F)} (hT : Para l m T) {W : Int} (hW : Room m T W)
  (ht : Tol l.toOptions) {i : Int} (hi : 0 ≤ i)
  (h6 : sumSt (T.take (findStartNode (nds T) 0)) = i) {c0 : List (TN F)} {y0 : TN F} {w0 : List (TN F)}
  (hc0 : T = c0 ++ y0 :: w0) (hy0 : y0.node.kind = .box) (hcb : ∀ z ∈ c0, z.node.kind ≠ .box)
  (hcs : ∀ s ∈ symsT c0, s = .gap)
  (hno : ∀ j : Nat, j < (symsT (c0.drop (findStartNode (nds T) 0))).length →
    ¬ ((j : Int) * m.space = W ∨ ((j : Int) * m.space < W ∧ 0 < 6 - i ∧ okRatio l.toOptions (W - j * m.space) (6 - i))))

include hs hT hW ht hi h6 hc0 hy0 hcs hno in
/-- No first line ends before the first box. -/
theorem rootNB_indent : RootNB l T W := by
  intro q hq
  obtain ⟨u, x, v, hu, hqu, hpu, hcut, hfx⟩ := step_cut hT.facts hq
  refine ⟨c0, y0, w0, hc0, hy0, Nat.zero_le _, ?_⟩
  by_contra hlt
  obtain ⟨u', x', v', k1, k2, k3, k4, k5, k6⟩ := hq
  have hul : u'.length = u.length := by rw [← hqu, k6]; rfl
  have hxn : x' = x.node := by
    have e1 : (nds T)[u'.length]? = some x' := by rw [k1]; simp
    have e2 : (nds T)[u.length]? = some x.node := by rw [hu]; simp [nds]
    rw [hul, e2] at e1
    exact (Option.some.inj e1).symm
  subst hxn
  rw [hul] at k5 k3
  have hxb : x.node.kind ≠ .box := by
    cases hcut with
    | final _ _ h _ _ _ => rw [h]; simp
    | pen s _ _ h _ _ _ => rw [h]; simp
    | gap r _ _ _ h => rcases h with ⟨h, _⟩ | ⟨h, _⟩ <;> rw [h] <;> simp
    | fin y _ _ _ _ h _ _ => rw [h]; simp
  have hlt2 : u.length < c0.length := by
    rcases Nat.lt_or_eq_of_le (Nat.le_of_not_lt (by rw [hqu] at hlt; exact hlt)) with h | h
    · exact h
    · exfalso
      have e1 : (c0 ++ y0 :: w0)[u.length]? = some x := by rw [← hc0, hu]; simp
      rw [h] at e1
      simp at e1
      rw [e1] at hy0
      exact hxb hy0
  have hcu : ∃ r, c0 = u ++ x :: r ∧ v = r ++ y0 :: w0 := by
    have e := hu.symm.trans hc0
    rcases List.append_eq_append_iff.mp e with ⟨a, h1, h2⟩ | ⟨a, h1, h2⟩
    · cases a with
      | nil => rw [h1] at hlt2; simp at hlt2
      | cons z a =>
        simp only [List.cons_append, List.cons.injEq] at h2
        exact ⟨a, by rw [h1, h2.1], h2.2⟩
    · rw [h1] at hlt2; simp at hlt2
  obtain ⟨r, hr1, hr2⟩ := hcu
  have hst0 : u.take (findStartNode (nds T) 0) = T.take (findStartNode (nds T) 0) := by
    have : ∀ s, s ≤ u.length → u.take s = T.take s := by
      intro s h
      rw [hu, List.take_append_of_le_length h]
    exact this _ k3
  have hsum : sumSt u = i + sumSt (u.drop (findStartNode (nds T) 0)) := by
    rw [← h6, ← hst0, ← sumSt_append, List.take_append_drop]
  -- the break is at a gap
  obtain ⟨g, hgap, hb⟩ : ∃ g, symsT v = .gap :: g ∧ x.tag = none ∧ (sumSt u = 6 ∨ sumSt u = 0) := by
    cases hcut with
    | final h1 _ _ _ _ _ => rw [hr2] at h1; simp at h1
    | pen s h1 h2 _ _ _ _ =>
      have : s ∈ symsT c0 := by rw [hr1, symsT_append, symsT_cons, h1]; simp
      rw [hcs s this] at h2
      simp at h2
    | gap r' h1 h2 _ h4 =>
      refine ⟨r', h2, h1, ?_⟩
      rcases h4 with ⟨_, h4⟩ | ⟨_, _, h4⟩ <;> omega
    | fin z _ h2 _ h4 _ _ _ =>
      exfalso
      rw [h2] at hr2
      cases r with
      | nil =>
        simp only [List.nil_append, List.cons.injEq] at hr2
        rw [← hr2.1, h4] at hy0
        cases hy0
      | cons a b => simp at hr2
  have hrat := ratio_at hs hT hW (o := l.toOptions) u [] x v (by simpa using hu) k3 (by simpa using hcut) true
    (rootPoint : BreakPoint F).toPoint [] rfl _ _ rfl rfl
  simp only [List.append_nil] at hrat
  have hfe := (feas_iff ht _ rfl _ _ _ _ (by have := hrat.2.1; rw [abs_le] at this; exact this.2) hrat.2.2 hrat.1).mp k5
  simp only [if_true] at hfe
  have e1 : stopSym x v = some .gap := by unfold stopSym; rw [hb.1, hgap]; rfl
  have hgs : ∀ s ∈ symsT (u.drop (findStartNode (nds T) 0)), s = .gap := by
    intro s h
    apply hcs s
    rw [hr1, symsT_append]
    apply List.mem_append_left
    unfold symsT at h ⊢
    exact (List.drop_sublist _ _).filterMap _ |>.subset h
  have hlt : (symsT (u.drop (findStartNode (nds T) 0))).length < (symsT (c0.drop (findStartNode (nds T) 0))).length := by
    rw [hr1, List.drop_append_of_le_length k3, symsT_append, List.length_append]
    have : 0 < (symsT (x :: r)).length := by
      obtain ⟨t, k, ey, _⟩ := (hT.facts c0 y0 w0 hc0).box hy0
      rw [hr2, symsT_append, symsT_cons, ey] at hgap
      rw [symsT_cons, hb.1]
      cases hr : symsT r with
      | nil => rw [hr] at hgap; simp [boxT] at hgap
      | cons a b => simp
    omega
  apply hno _ hlt
  rw [← lineWidth_gaps m _ hgs]
  rw [e1] at hfe
  have z1 : lineWidth m (symsT ([] : List (TN F))) + endWidth m (some .gap) + lineWidth m (symsT (u.drop (findStartNode (nds T) 0))) =
      lineWidth m (symsT (u.drop (findStartNode (nds T) 0))) := by
    show (0 : Int) + 0 + _ = _
    omega
  have z2 : sumSt ([] : List (TN F)) + sumSt (u.drop (findStartNode (nds T) 0)) = sumSt u - i := by
    show (0 : Int) + _ = _
    omega
  rw [z1, z2] at hfe
  rcases hfe with hfe | ⟨k1, k2, k3⟩
  · exact Or.inl hfe
  · right
    rcases hb.2 with e | e
    · rw [e] at k2 k3
      exact ⟨k1, k2, k3⟩
    · exfalso; omega

end

/-- The exact result for texts that start with empty words, when no first line is without text. -/
theorem align_indented {rt : Runtime} (hrt : ∀ (i n : Nat) (c : Class), c ∈ rt.order i n) {env : Env} {l : LineBreaker F}
    {sp : Splitter} (hsp : Splits env l sp)
    {m : Measure} (hs : Setup l m) (tokens : List (List Rune)) (tks : List (List Span))
    (hst : List.Forall₂ (Strips rt env) tokens tks) (hne : tokens ≠ []) (L : List Piece) (hL : l.attrList = lv 0 L)
    (maxWidth : F) (W : Int) (hW : l.scale maxWidth = Arith.ofInt W) (hpos : 0 < W) (g : List Rune) (hg : Pads l.toOptions m g)
    (ht : Tol l.toOptions) (htame : TameOpts l) (i e : Int)
    (hind : ∀ T, T = parNodes l m L.length (parBlocks sp tks) → Indent m T i e)
    (hnb : ∀ T, T = parNodes l m L.length (parBlocks sp tks) → RootNB l T W)
    (hB : lineWidth m (syms (parBlocks sp tks)) + m.hyphen + |W| ≤ Laws.bound F) :
    ((¬ ∃ lines, Layout (fun _ => []) (AcceptableIn i e m W (okRatio l.toOptions)) false true
        (startLine (syms (parBlocks sp tks))) lines) ∧
      leftAlignUniform rt env l tokens maxWidth = .ok (none, { l with attrList := lv 0 (L ++ parPieces sp tks) })) ∨
    ((∃ lines, Layout (fun _ => []) (AcceptableIn i e m W (okRatio l.toOptions)) false true
        (startLine (syms (parBlocks sp tks))) lines) ∧
      ∃ segs lines, Layout (hyOf l) (AcceptableIn i e m W (okRatio l.toOptions)) false true
        (startLine (syms (parBlocks sp tks))) lines ∧
      List.Forall₂ (LineOf l) segs lines ∧
      (∀ z ∈ segs.flatten, z ∈ parNodes l m L.length (parBlocks sp tks)) ∧
      leftAlignUniform rt env l tokens maxWidth =
        .ok (some (renderSegs l (lv 0 (L ++ parPieces sp tks)) g segs (AState.iterator (lv 0 (L ++ parPieces sp tks)))),
          { l with attrList := lv 0 (L ++ parPieces sp tks) })) := by
  obtain ⟨T, hTd⟩ : ∃ T, T = parNodes l m L.length (parBlocks sp tks) := ⟨_, rfl⟩
  have hT : Para l m T := hTd ▸ para_parNodes hs L.length (parBlocks sp tks) (noSoft_par sp tks)
  have hsy : symsT T = syms (parBlocks sp tks) := by rw [hTd]; exact symsT_parNodes _ _
  have hroom : Room m T W := ⟨by rw [hsy]; exact hB⟩
  replace hind := hind T hTd
  replace hnb := hnb T hTd
  obtain ⟨act, h1, h2, _⟩ := align_eq hsp hs tokens tks hst hne L hL maxWidth T hTd
  have h3 : ∀ tokens tks', List.Forall₂ (Strips rt env) tokens tks' → tokens ≠ [] → parBlocks sp tks' = parBlocks sp tks →
      leftAlignUniform rt env l tokens maxWidth = (match act.head? with
        | none => .ok (none, { l with attrList := lv 0 (L ++ parPieces sp tks') })
        | some a => do
          let lines ← render l.toOptions (lv 0 (L ++ parPieces sp tks')) (nds T) ((a.toPoint :: a.previous).reverse)
          .ok (some lines, { l with attrList := lv 0 (L ++ parPieces sp tks') })) := by
    intro tokens tks' a b c
    obtain ⟨act', e1, _, e3⟩ := align_eq hsp hs tokens tks' a b L hL maxWidth T (by rw [c]; exact hTd)
    rw [h1] at e1
    cases e1
    exact e3
  have hst0 := hst
  have hne0 := hne
  clear hst hne
  -- the search
  have hslt : findStartNode (nds T) 0 < T.length := by
    have := (para_start hT).1
    simpa [nds] using this
  have htl : (T.take (findStartNode (nds T) 0)).length = findStartNode (nds T) 0 := by simp; omega
  obtain ⟨act', k1, k2, k3, k4⟩ := loop_tight hs hT hroom hnb ht htame hpos rt hrt (T.drop (findStartNode (nds T) 0))
    (T.take (findStartNode (nds T) 0)) [rootPoint] (by simp) (by
      intro e; have := congrArg List.length e; simp at this; omega) (by omega) (by
      rw [htl]; exact inv_root hs hT hroom)
  rw [htl] at k1
  have e1 : (T.take (findStartNode (nds T) 0)).getLast?.map TN.node =
      (if findStartNode (nds T) 0 = 0 then none else (nds T)[findStartNode (nds T) 0 - 1]?) := by
    by_cases e : findStartNode (nds T) 0 = 0
    · rw [e]; simp
    · rw [if_neg e, List.getLast?_eq_getElem?, htl, List.getElem?_take]
      rw [if_pos (by omega)]
      simp [nds]
  have e2 : nds (T.drop (findStartNode (nds T) 0)) = (nds T).drop (findStartNode (nds T) 0) := by simp [nds]
  have e3 : sumAt (nds T) (findStartNode (nds T) 0) = Sums.zero := by
    have hwT := Room.width hs hroom
    rw [sumAt_sumsT hs hT hwT, List.drop_of_length_le (by omega)]; rfl
  rw [e1, e2, e3, ← hW, h1] at k1
  simp only [Except.ok.injEq] at k1
  subst k1
  cases hh : act.head? with
  | none =>
    left
    refine ⟨?_, by rw [h3 tokens tks hst0 hne0 rfl, hh]⟩
    rintro ⟨lines, hl⟩
    apply k3 (reach_of_layout hs hT hind hl 0 Reach.root (by omega) (by rw [List.drop_zero, hsy]))
    cases act with
    | nil => rfl
    | cons a b => simp at hh
  | some a =>
    right
    obtain ⟨hch, hposa⟩ := h2 a (List.mem_of_mem_head? hh)
    obtain ⟨pts, hp1, hp2⟩ := chain_path_tight (T := T) hch a.toPoint a.previous [] rfl (k2 a (List.mem_of_mem_head? hh)).1
      (k2 a (List.mem_of_mem_head? hh)).2 (Path.nil _)
    rw [List.append_nil] at hp1
    simp only [hh] at h3
    rw [hp1] at h3
    have hz := chain_zero hch
    have hTl : (nds T).length = T.length := by simp [nds]
    have hlast : ∀ q, pts.getLast? = some q → q.position + 1 = T.length := by
      intro q hq
      have e : (rootPoint.toPoint :: pts).getLast? = some a.toPoint := by rw [← hp1]; simp
      cases pts with
      | nil => simp at hq
      | cons b bs =>
        rw [List.getLast?_cons_cons, hq] at e
        simp only [Option.some.injEq] at e
        rw [e]; omega
    have hne' : pts ≠ [] := by
      rintro rfl
      have e := congrArg List.getLast? hp1
      simp at e
      have : a.position = 0 := by rw [e]; rfl
      have := (para_start hT).2
      obtain ⟨_, c, y, w, hc, hy, _⟩ := hind
      have hTlen : T.length = 1 := by omega
      have hlen1 : T.length = c.length + (w.length + 1) := by rw [hc]; simp
      have hc0 : c = [] := List.eq_nil_of_length_eq_zero (by omega)
      have hw0 : w = [] := List.eq_nil_of_length_eq_zero (by omega)
      have := ((hT.facts c y w hc).last hw0).2.1
      rw [this] at hy; cases hy
    have hmem : ∀ q ∈ pts, q.ratio = zero := by
      intro q hq
      refine (hz q ?_).2
      have : q ∈ (a.toPoint :: a.previous).reverse := by rw [hp1]; simp [hq]
      exact List.mem_reverse.mp this
    have hpath := hp2.and hmem
    have hlay := lines_layout hs hT.facts (T := T) (I := fun first p => if first then p = rootPoint.toPoint else TotAt m T p)
      (P := fun f p s _ => AcceptableIn i e m W (okRatio l.toOptions) f p s) (o := l.toOptions) (ideal := l.scale maxWidth) false
      (fun p q h => h.1.1) (fun p q h => h.2)
      (fun p q h => by
        simp only [Bool.false_eq_true, if_false]
        exact step_tot hs hT hroom h.1.1)
      (by
        intro first p q c d x v hi hpq hc hpc hbox hd hq hcut
        obtain ⟨u', x', v', k1, k2, k3, k4, k5, k6⟩ := hpq.1.1
        have hul : u'.length = (c ++ d).length := by rw [← hq, k6]; rfl
        have hx' : x' = x.node := by
          have e1 : (nds T)[u'.length]? = some x' := by rw [k1]; simp
          have e2 : (nds T)[(c ++ d).length]? = some x.node := by rw [hc]; simp [nds]
          rw [hul, e2] at e1
          exact (Option.some.inj e1).symm
        subst hx'
        obtain ⟨y, d', rfl, hy⟩ := hd
        have hTc : T = c ++ y :: (d' ++ x :: v) := by rw [hc]; simp
        have hstart2 : findStartNode (nds T) 0 ≤ c.length := by
          have := findStartNode_le_box c y (d' ++ x :: v) 0 (Or.inl hy)
          rw [← hTc] at this; omega
        have hptot : p.totals = if first then Sums.zero else sumsT m (c.drop (findStartNode (nds T) 0)) := by
          cases first with
          | true => simp only [if_true] at hi ⊢; rw [hi]; rfl
          | false =>
            simp only [Bool.false_eq_true, if_false] at hi ⊢
            exact hi.2 c y _ hTc hpc hbox (Or.inl hy)
        have hr := ratio_at hs hT hroom (o := l.toOptions) c (y :: d') x v hc hstart2 hcut first p [] hptot _ _ rfl rfl
        rw [hul, hW] at k5
        have := (feas_iff ht _ rfl _ _ _ _ (by have := hr.2.1; rw [abs_le] at this; exact this.2) hr.2.2 hr.1).mp k5
        have hf0 : first = true → ∀ z ∈ c, z.node.kind ≠ .box := by
          intro e
          subst e
          simp only [if_true] at hi
          rw [hi] at hbox
          exact hbox
        exact acceptable_ind hT hind first c _ x v hc y d' rfl hy hf0 hcut this)
      (by
        intro _ p q h
        exact h.1.2.1) pts rootPoint.toPoint true hpath (by simp) (by
        show 0 < T.length
        omega) hne' hlast
    have hpos0 : (rootPoint : BreakPoint F).toPoint.position = 0 := rfl
    rw [hpos0] at hlay
    rcases hlay with ⟨he, _⟩ | ⟨segs, lines, g1, g2, g3, g4, g5⟩
    · cases he
    · rw [List.drop_zero, hsy] at g2
      have g2' := LayoutR.layout (Q := AcceptableIn i e m W (okRatio l.toOptions)) (fun _ _ _ _ h => h) g2
      refine ⟨Layout.hy g2', segs, lines, g2', g3, ?_⟩
      rw [h3 tokens tks hst0 hne0 rfl]
      unfold render
      simp only [List.tail_cons]
      rw [g1, ok_bind, renderLoop_eq hs hg _ segs (fun x hx => rend_of_facts hT x (g5 x hx))]
      exact ⟨by rw [← hTd]; exact g5, rfl⟩

/-! ## The nodes of paragraphs that start with empty words -/

theorem tokenBlocks_nil {sp : Splitter} (hl : sp.Lossless) : tokenBlocks sp [] = [] := by
  have h := hl.marks []
  have : sp.marks [] = [] := by
    cases e : sp.marks [] with
    | nil => rfl
    | cons a b =>
      rw [e] at h
      have h1 := (List.append_eq_nil_iff.mp h.1).1
      exact absurd (by rw [h1]; simp) h.2
  simp [tokenBlocks, this]

theorem paraBlocks_indent {sp : Splitter} (hl : sp.Lossless) (k : Nat) (t : List Rune) (ts : List (List Rune)) :
    paraBlocks sp (List.replicate k [] ++ t :: ts) = List.replicate k .gap ++ paraBlocks sp (t :: ts) := by
  induction k with
  | zero => rfl
  | succ k ih =>
    have : ∃ u us, List.replicate k [] ++ t :: ts = u :: us := by
      cases k with
      | zero => exact ⟨_, _, rfl⟩
      | succ k => exact ⟨_, _, rfl⟩
    obtain ⟨u, us, e⟩ := this
    rw [List.replicate_succ, List.cons_append, e, paraBlocks, ← e, ih, tokenBlocks_nil hl, List.replicate_succ]
    · rfl
    · intro h; cases h

theorem tns_gaps (l : LineBreaker F) (m : Measure) (n k : Nat) (bs : List Block) :
    tns l m n (List.replicate k .gap ++ bs) = gapsT l m k ++ tns l m n bs := by
  induction k with
  | zero => rfl
  | succ k ih =>
    rw [List.replicate_succ, List.cons_append, tns, gapsT]
    have : n + (Block.gap).text.length = n := rfl
    rw [this, ih, List.append_assoc]
    rfl

/-- The nodes before the first box of nodes that start with a part of a word. -/
theorem tns_first (l : LineBreaker F) (m : Measure) (n : Nat) (bs : List Block) (h : StartsWithPart (syms bs)) :
    ∃ pre y w, tns l m n bs = pre ++ y :: w ∧ y.node.kind = .box ∧ (∀ z ∈ pre, z.node.kind ≠ .box) ∧ symsT pre = [] ∧
      (∀ i, findStartNode (nds (pre ++ y :: w)) i = i + openMark (syms bs)) ∧ pre.length = 2 * openMark (syms bs) := by
  cases bs with
  | nil => obtain ⟨_, _, e⟩ := h; cases e
  | cons b bs =>
    have mk : ∀ t p s, ∃ pre y w, markT l m n t p s ++ tns l m (n + 1) bs = pre ++ y :: w ∧
        y.node.kind = .box ∧ (∀ z ∈ pre, z.node.kind ≠ .box) ∧ symsT pre = [] ∧
        (∀ i, findStartNode (nds (pre ++ y :: w)) i = i + 1) ∧ pre.length = 2 := by
      intro t p s
      refine ⟨[⟨newPenalty zero infinity false, none, 0, 0⟩, ⟨newGlue zero l.glueStretch zero, none, 0, 6⟩], boxT l m n t,
        _, rfl, rfl, ?_, rfl, ?_, rfl⟩
      · intro z hz
        simp only [List.mem_cons, List.not_mem_nil, or_false] at hz
        rcases hz with rfl | rfl <;> simp [newPenalty, newGlue]
      · intro i
        have hz : ¬ (Arith.eq (newPenalty (zero : F) infinity false).penalty minusInfinity = true) := by
          simp [newPenalty, infinity, minusInfinity, eq_small (F := F) 10000 (-10000) (by decide) (by decide)]
        refine (if_neg hz).trans ?_
        rfl
    cases b with
    | box t =>
      have e0 : openMark (syms (.box t :: bs)) = 0 := by
        have e : syms (.box t :: bs) = .part t :: syms bs := rfl
        rw [e]
        cases bs with
        | nil => rfl
        | cons b bs => cases b <;> rfl
      rw [e0]
      refine ⟨[], boxT l m n t, _, rfl, rfl, by simp, rfl, fun i => ?_, rfl⟩
      rfl
    | mark t => exact mk t _ _
    | hard t => exact mk t _ _
    | soft => obtain ⟨_, _, e⟩ := h; cases e
    | gap => obtain ⟨_, _, e⟩ := h; cases e

section
variable {l : LineBreaker F} {m : Measure} (hs : Setup l m) {T : List (TN F)} {W : Int} {n k : Nat} {bs : List Block}
  (hTd : T = parNodes l m n (List.replicate k .gap ++ bs)) (hb : StartsWithPart (syms bs)) (hk : 0 < k)
include hTd hb hk

theorem indent_parts : ∃ c y w, T = c ++ y :: w ∧ y.node.kind = .box ∧ (∀ z ∈ c, z.node.kind ≠ .box) ∧
    (∀ s ∈ symsT c, s = .gap) ∧ sumSt (T.take (findStartNode (nds T) 0)) = indentLoss k (syms bs) ∧
    symsT (c.drop (findStartNode (nds T) 0)) = List.replicate (indentGaps k (syms bs)) .gap := by
  obtain ⟨pre, y, w, h1, h2, h3, h4, h5, h6⟩ := tns_first l m n bs hb
  have hom : openMark (syms bs) ≤ 1 := by unfold openMark; split <;> omega
  have hT : T = gapsT l m k ++ (pre ++ y :: (w ++ finT)) := by
    rw [hTd, parNodes, tns_gaps, h1]; simp
  have hstart : findStartNode (nds T) 0 = 2 * k + openMark (syms bs) := by
    rw [hT, gapsT_start]
    have h7 : ∀ (a : List (Node F)) (b : List (Node F)) i, (∃ x ∈ a, x.kind = .box) → findStartNode (a ++ b) i = findStartNode a i := by
      intro a b
      induction a with
      | nil => rintro i ⟨_, h, _⟩; cases h
      | cons x a ih =>
        intro i hx
        rw [List.cons_append, findStartNode, findStartNode]
        cases hk : x.kind with
        | box => rfl
        | penalty =>
          have : ∃ x ∈ a, x.kind = .box := by
            obtain ⟨z, hz, hz2⟩ := hx
            rcases List.mem_cons.mp hz with rfl | hz
            · rw [hk] at hz2; cases hz2
            · exact ⟨z, hz, hz2⟩
          simp only [ih _ this]
        | glue =>
          have : ∃ x ∈ a, x.kind = .box := by
            obtain ⟨z, hz, hz2⟩ := hx
            rcases List.mem_cons.mp hz with rfl | hz
            · rw [hk] at hz2; cases hz2
            · exact ⟨z, hz, hz2⟩
          simp only [ih _ this]
    have e : nds (pre ++ y :: (w ++ finT)) = nds (pre ++ y :: w) ++ nds finT := by
      rw [← nds_append]; simp
    rw [e, h7 _ _ _ ⟨y.node, by simp [nds], h2⟩, h5]
    omega
  have hgl := gapsT_length l m k
  refine ⟨gapsT l m k ++ pre, y, w ++ finT, by rw [hT]; simp, h2, ?_, ?_, ?_, ?_⟩
  · intro z hz
    rcases List.mem_append.mp hz with hz | hz
    · exact gapsT_nobox l m k z hz
    · exact h3 z hz
  · intro s h
    rw [symsT_append, h4, List.append_nil, gapsT_syms] at h
    exact (List.mem_replicate.mp h).2
  · rw [hstart, hT, gapsT_sum l m k _ _ (by omega)]
    rfl
  · rw [hstart, List.drop_append_of_le_length (by omega), symsT_append, h4, List.append_nil]
    exact gapsT_drop l m k _ (by omega)

include hs in
theorem indent_root (hT : Para l m T) (hroom : Room m T W) (ht : Tol l.toOptions)
    (hno : NoBlankFirst m W (okRatio l.toOptions) k (syms bs)) :
    Indent m T (indentLoss k (syms bs)) (indentGaps k (syms bs) * m.space) ∧ RootNB l T W := by
  obtain ⟨c, y, w, h1, h2, h3, h4, h5, h6⟩ := indent_parts hTd hb hk
  have hi : 0 ≤ indentLoss k (syms bs) := by unfold indentLoss; split <;> omega
  constructor
  · refine ⟨hi, c, y, w, h1, h2, h3, h5, ?_⟩
    rw [h6, lineWidth_gaps m _ (fun s h => (List.mem_replicate.mp h).2), List.length_replicate]
  · refine rootNB_indent hs hT hroom ht hi h5 h1 h2 h4 ?_
    intro j hj
    rw [h6, List.length_replicate] at hj
    exact hno j hj

end

section
variable {rt : Runtime} {env : Env} {dict : Dictionary} {opts : List (Opt F)} {text : List Rune → Int} {n : Nat}
  {l : LineBreaker F} {maxWidth : F} {W : Int} {k : Nat} {t : List Rune} {ts : List (List Rune)}

/-- **Escape-free paragraphs that start with empty words.** -/
theorem call_indented (c : Call rt env dict opts text n l (List.replicate k [] ++ t :: ts) maxWidth W) (hpos : 0 < W)
    (ht : t ≠ []) (hk : 0 < k)
    (hno : NoBlankFirst (measureOf (defaultOptions opts) text) W (okRatio (defaultOptions opts)) k
      (paraSyms (splitterOf env dict (defaultOptions opts)) (t :: ts))) :
    let sp := splitterOf env dict (defaultOptions opts)
    let m := measureOf (defaultOptions opts) text
    let P := AcceptableIn (indentLoss k (paraSyms sp (t :: ts))) (indentGaps k (paraSyms sp (t :: ts)) * m.space) m W
      (okRatio (defaultOptions opts))
    ∃ l', ((¬ ∃ lines, Layout (fun _ => []) P false true (paraSyms sp (t :: ts)) lines) ∧
        leftAlignUniform rt env l (List.replicate k [] ++ t :: ts) maxWidth = .ok (none, l')) ∨
      ((∃ lines, Layout (fun _ => []) P false true (paraSyms sp (t :: ts)) lines) ∧
        ∃ lines, Layout (hyOf (new env dict opts)) P false true (paraSyms sp (t :: ts)) lines ∧
          leftAlignUniform rt env l (List.replicate k [] ++ t :: ts) maxWidth =
            .ok (some (lines.map (Line.text (List.replicate n 0x20))), l')) := by
  intro sp m P
  have hk' := kept_used c.sane c.digits c.used
  obtain ⟨L, hL, hl⟩ := hk'.plain
  have ho := hk'.options
  have hlos : sp.Lossless := lossless c.sane
  have hbl : parBlocks sp ((List.replicate k [] ++ t :: ts).map bare) = List.replicate k .gap ++ paraBlocks sp (t :: ts) := by
    rw [parBlocks_bare, paraBlocks_indent hlos]
  have hsy : syms (paraBlocks sp (t :: ts)) = paraSyms sp (t :: ts) := syms_paraBlocks _ _
  have hstart : StartsWithPart (paraSyms sp (t :: ts)) := para_starts hlos t ht ts
  have hsl : startLine (syms (parBlocks sp ((List.replicate k [] ++ t :: ts).map bare))) = paraSyms sp (t :: ts) := by
    rw [hbl, syms_append, hsy]
    have : ∀ k : Nat, startLine (syms (List.replicate k .gap) ++ paraSyms sp (t :: ts)) = paraSyms sp (t :: ts) := by
      intro k
      induction k with
      | zero =>
        obtain ⟨p, r, e⟩ := hstart
        rw [e]; rfl
      | succ k ih => exact ih
    exact this k
  have hu : Usual l.toOptions := ho ▸ usual_new c.sane
  have hhy : hyOf l = hyOf (new env dict opts) := by
    funext s; cases s <;> simp [hyOf, penOf, ho]
  have hok : okRatio l.toOptions = okRatio (defaultOptions opts) := by rw [ho]; rfl
  have hB : lineWidth m (syms (parBlocks sp ((List.replicate k [] ++ t :: ts).map bare))) + m.hyphen + |W| ≤ Laws.bound F := by
    rw [parBlocks_bare, syms_paraBlocks]; exact c.exact
  have hset := hk'.setup c.sane
  have key : ∀ T, T = parNodes l m L.length (parBlocks sp ((List.replicate k [] ++ t :: ts).map bare)) →
      Indent m T (indentLoss k (paraSyms sp (t :: ts))) (indentGaps k (paraSyms sp (t :: ts)) * m.space) ∧ RootNB l T W := by
    intro T hTd
    have hT : Para l m T := hTd ▸ para_parNodes hset L.length _ (noSoft_par sp _)
    have hroom : Room m T W := ⟨by rw [hTd, symsT_parNodes]; exact hB⟩
    rw [hbl] at hTd
    rw [← hsy]
    refine indent_root hset hTd (by rw [hsy]; exact hstart) hk hT hroom hu.tol ?_
    rw [hsy, hok]; exact hno
  have := align_indented (rt := rt) c.walks (hk'.splits c.sane) hset (List.replicate k [] ++ t :: ts) _
    (strips_all rt c.digits _ c.escapeFree) (by simp) L hl maxWidth W (by rw [ho]; exact c.scaled) hpos
    (List.replicate n 0x20) (by rw [ho]; exact pads_new c.sane) hu.tol (hu.tame hset) _ _ (fun T h => (key T h).1)
    (fun T h => (key T h).2) hB
  rw [hsl, hok] at this
  rcases this with ⟨h1, h2⟩ | ⟨h1, segs, lines, h2, h3, h4, h5⟩
  · exact ⟨_, Or.inl ⟨h1, h2⟩⟩
  · rw [render_bare hset _ _ L hL _ segs lines h3 h4] at h5
    exact ⟨_, Or.inr ⟨h1, lines, hhy ▸ h2, h5⟩⟩

end

/-! ## Paragraphs of empty words -/

theorem paraBlocks_empty {sp : Splitter} (hl : sp.Lossless) (k : Nat) :
    paraBlocks sp (List.replicate (k + 1) []) = List.replicate k .gap := by
  induction k with
  | zero => exact tokenBlocks_nil hl
  | succ k ih =>
    rw [List.replicate_succ, show List.replicate (k + 1) ([] : List Rune) = [] :: List.replicate k [] from rfl, paraBlocks,
      tokenBlocks_nil hl, ← List.replicate_succ, ih, List.replicate_succ]
    · rfl
    · intro h; cases h

section
variable {l : LineBreaker F} {m : Measure} (hs : Setup l m) {T : List (TN F)} (hT : Para l m T) {W : Int} {n k : Nat}
  (hTd : T = parNodes l m n (List.replicate k .gap)) (hk : 0 < k) (hW : Room m T W) (ht : Tol l.toOptions)
  (hno : ∀ j : Nat, j ≤ k → (j : Int) * m.space < W ∧ ¬ okRatio l.toOptions (W - j * m.space) 6)
include hs hT hTd hk hW ht hno

/-- The first line of empty words is the last one. -/
theorem root_final {q : Point F} (hq : Step l.toOptions (nds T) (Arith.ofInt W) rootPoint.toPoint q) :
    q.position + 1 = T.length := by
  have hTg : T = gapsT l m k ++ finT := by
    have := tns_gaps l m n k []
    rw [List.append_nil] at this
    rw [hTd, parNodes, this]
    simp [tns]
  have hstart : findStartNode (nds T) 0 = 2 * k + 1 := by
    rw [hTg, gapsT_start]
    have e : nds (finT : List (TN F)) = [newGlue zero infinity zero, newPenalty zero minusInfinity true] := rfl
    rw [e, findStartNode]
    simp only [newGlue]
    rw [findStartNode]
    have hz : Arith.eq (newPenalty (zero : F) minusInfinity true).penalty minusInfinity = true := by
      simp [newPenalty, minusInfinity, eq_small (F := F) (-10000) (-10000) (by decide) (by decide)]
    refine (if_pos hz).trans ?_
    omega
  obtain ⟨i, hi, h6⟩ : ∃ i, (i = 0 ∨ i = 6) ∧ sumSt (T.take (findStartNode (nds T) 0)) = i := by
    rw [hstart, hTg, gapsT_sum l m k _ _ (by omega)]
    split
    · exact ⟨0, Or.inl rfl, rfl⟩
    · exact ⟨6, Or.inr rfl, rfl⟩
  obtain ⟨u, x, v, hu, hqu, hpu, hcut, hfx⟩ := step_cut hT.facts hq
  obtain ⟨u', x', v', k1, k2, k3, k4, k5, k6⟩ := hq
  have hul : u'.length = u.length := by rw [← hqu, k6]; rfl
  have hxn : x' = x.node := by
    have e1 : (nds T)[u'.length]? = some x' := by rw [k1]; simp
    have e2 : (nds T)[u.length]? = some x.node := by rw [hu]; simp [nds]
    rw [hul, e2] at e1
    exact (Option.some.inj e1).symm
  subst hxn
  rw [hul] at k5 k3
  have hsT : symsT T = List.replicate k .gap := by
    rw [hTg, symsT_append, gapsT_syms]
    have : symsT (finT : List (TN F)) = [] := rfl
    rw [this, List.append_nil]
  have hst0 : u.take (findStartNode (nds T) 0) = T.take (findStartNode (nds T) 0) := by
    have : ∀ s, s ≤ u.length → u.take s = T.take s := by
      intro s h
      rw [hu, List.take_append_of_le_length h]
    exact this _ k3
  have hsum : sumSt u = i + sumSt (u.drop (findStartNode (nds T) 0)) := by
    rw [← h6, ← hst0, ← sumSt_append, List.take_append_drop]
  have hrat := ratio_at hs hT hW (o := l.toOptions) u [] x v (by simpa using hu) k3 (by simpa using hcut) true
    (rootPoint : BreakPoint F).toPoint [] rfl _ _ rfl rfl
  simp only [List.append_nil] at hrat
  have hfe := (feas_iff ht _ rfl _ _ _ _ (by have := hrat.2.1; rw [abs_le] at this; exact this.2) hrat.2.2 hrat.1).mp k5
  simp only [if_true] at hfe
  have hsub : (symsT (u.drop (findStartNode (nds T) 0))).Sublist (List.replicate k .gap) := by
    rw [← hsT, hu, symsT_append]
    refine List.Sublist.trans ?_ (List.sublist_append_left _ _)
    unfold symsT
    exact (List.drop_sublist _ _).filterMap _
  have hgs : ∀ s ∈ symsT (u.drop (findStartNode (nds T) 0)), s = .gap :=
    fun s h => (List.mem_replicate.mp (hsub.subset h)).2
  have hlen : (symsT (u.drop (findStartNode (nds T) 0))).length ≤ k := by
    have := hsub.length_le
    simpa using this
  obtain ⟨n1, n2⟩ := hno _ hlen
  rw [← lineWidth_gaps m _ hgs] at n1 n2
  have z2 : sumSt ([] : List (TN F)) + sumSt (u.drop (findStartNode (nds T) 0)) = sumSt u - i := by
    show (0 : Int) + _ = _
    omega
  -- the other places are not feasible
  have key : endWidth m (stopSym x v) = 0 → (sumSt u = 6 ∨ sumSt u = 0) → False := by
    intro he hb
    have z1 : lineWidth m (symsT ([] : List (TN F))) + endWidth m (stopSym x v) +
        lineWidth m (symsT (u.drop (findStartNode (nds T) 0))) = lineWidth m (symsT (u.drop (findStartNode (nds T) 0))) := by
      rw [he]
      show (0 : Int) + 0 + _ = _
      omega
    rw [z1, z2] at hfe
    rcases hfe with hfe | ⟨_, q2, q3⟩
    · omega
    · rcases hb with hb | hb
      · rcases hi with rfl | rfl
        · rw [hb, sub_zero] at q3
          exact n2 q3
        · omega
      · omega
  cases hcut with
  | final e _ _ _ _ _ => rw [hqu, hu, e]; simp
  | pen s e1 e2 _ _ _ _ =>
    exfalso
    have : s ∈ symsT T := by rw [hu, symsT_append, symsT_cons, e1]; simp
    rw [hsT] at this
    rw [(List.mem_replicate.mp this).2] at e2
    simp at e2
  | gap r e1 e2 _ e4 =>
    exfalso
    refine key (by simp [stopSym, e1, e2, endWidth]) ?_
    rcases e4 with ⟨_, e4⟩ | ⟨_, _, e4⟩
    · exact Or.inr e4
    · exact Or.inl e4
  | fin z e1 e2 e3 _ _ _ e7 =>
    exfalso
    exact key (by simp [stopSym, e1, e2, symsT, e3, endWidth]) (Or.inr e7)

end

/-- One line of empty words. -/
theorem align_empty {rt : Runtime} {env : Env} {l : LineBreaker F} {sp : Splitter} (hsp : Splits env l sp)
    {m : Measure} (hs : Setup l m) (tokens : List (List Rune)) (tks : List (List Span))
    (hst : List.Forall₂ (Strips rt env) tokens tks) (hne : tokens ≠ []) (L : List Piece) (hL : l.attrList = lv 0 L)
    (maxWidth : F) (W : Int) (hW : l.scale maxWidth = Arith.ofInt W) (g : List Rune) (hg : Pads l.toOptions m g)
    (ht : Tol l.toOptions) (k : Nat) (hk : 0 < k) (hbl : parBlocks sp tks = List.replicate k .gap)
    (hno : ∀ j : Nat, j ≤ k → (j : Int) * m.space < W ∧ ¬ okRatio l.toOptions (W - j * m.space) 6)
    (hB : lineWidth m (syms (parBlocks sp tks)) + m.hyphen + |W| ≤ Laws.bound F) :
    ∃ r, leftAlignUniform rt env l tokens maxWidth = .ok r ∧ ∀ lines, r.1 = some lines → lines.length = 1 := by
  obtain ⟨T, hTd⟩ : ∃ T, T = parNodes l m L.length (parBlocks sp tks) := ⟨_, rfl⟩
  have hT : Para l m T := hTd ▸ para_parNodes hs L.length (parBlocks sp tks) (noSoft_par sp tks)
  have hsy : symsT T = syms (parBlocks sp tks) := by rw [hTd]; exact symsT_parNodes _ _
  have hroom : Room m T W := ⟨by rw [hsy]; exact hB⟩
  obtain ⟨act, h1, h2, h3⟩ := align_eq hsp hs tokens tks hst hne L hL maxWidth T hTd
  rw [h3]
  cases hh : act.head? with
  | none => exact ⟨_, rfl, fun _ h => by cases h⟩
  | some a =>
    obtain ⟨hch, hpos⟩ := h2 a (List.mem_of_mem_head? hh)
    obtain ⟨pts, hp1, hp2⟩ := chain_path hch a.toPoint a.previous [] rfl (Path.nil _)
    rw [List.append_nil] at hp1
    simp only
    rw [hp1]
    have hz := chain_zero hch
    have hTl : (nds T).length = T.length := by simp [nds]
    rw [hbl] at hTd
    rw [hW] at hp2
    cases pts with
    | nil =>
      refine ⟨_, rfl, ?_⟩
      exfalso
      have e := congrArg List.getLast? hp1
      simp at e
      have : a.position = 0 := by rw [e]; rfl
      have := (para_start hT).2
      omega
    | cons q rest =>
      cases hp2 with
      | cons hpq hrest =>
      have hqT := root_final hs hT hTd hk hroom ht hno hpq
      cases rest with
      | cons q' rest =>
        exfalso
        cases hrest with
        | cons h _ =>
        obtain ⟨u, x, v, e1, _, e3, _, _⟩ := step_cut hT.facts h
        have : T.length = u.length + (v.length + 1) := by rw [e1]; simp
        omega
      | nil =>
        have hqz : q.ratio = zero := by
          refine (hz q ?_).2
          have : q ∈ (a.toPoint :: a.previous).reverse := by rw [hp1]; simp
          exact List.mem_reverse.mp this
        have hTne : T ≠ [] := by rintro rfl; simp at hqT
        obtain ⟨s, y, w, g1, _, _, _, g5⟩ := skip_split hT.facts [] T rfl hTne
        have hlen : T.length = s.length + (w.length + 1) := by
          conv_lhs => rw [g1]
          simp
        have hseg : slice (nds T) ((0 + s.length : Nat) : Int) ((q.position : Int) + 1) = .ok (nds (y :: w)) := by
          have e : (q.position : Int) + 1 = ((q.position + 1 : Nat) : Int) := by omega
          rw [e, hqT, ← hTl, slice_ok (by omega) (by omega), List.take_of_length_le (by simp), Nat.zero_add]
          congr 1
          conv_lhs => rw [g1]
          simp [nds]
        have hll : linesLoop (nds T) [q] 0 = .ok ([y :: w].map (fun s => (zero, nds s))) := by
          rw [linesLoop, show skipNodes 0 (nds T) = _ from g5, ok_bind]
          simp only [List.length_nil]
          rw [hseg, ok_bind, linesLoop, ok_bind, hqz]
          rfl
        unfold render
        simp only [List.tail_cons]
        rw [hll, ok_bind, renderLoop_eq hs hg _ [y :: w] (fun x hx => rend_of_facts hT x (by
          rw [g1]; simp at hx; simp [hx]))]
        refine ⟨_, rfl, ?_⟩
        intro lines h
        simp only [Option.some.injEq] at h
        rw [← h]
        simp [renderSegs]

section
variable {rt : Runtime} {env : Env} {dict : Dictionary} {opts : List (Opt F)} {text : List Rune → Int} {n : Nat}
  {l : LineBreaker F} {maxWidth : F} {W : Int} {k : Nat}

theorem call_empty (c : Call rt env dict opts text n l (List.replicate (k + 1) []) maxWidth W) (hk : 0 < k)
    (hno : ∀ j : Nat, j ≤ k → (j : Int) * (measureOf (defaultOptions opts) text).space < W ∧
      ¬ okRatio (defaultOptions opts) (W - j * (measureOf (defaultOptions opts) text).space) 6) :
    ∃ r, leftAlignUniform rt env l (List.replicate (k + 1) []) maxWidth = .ok r ∧ ∀ lines, r.1 = some lines → lines.length = 1 := by
  have hk' := kept_used c.sane c.digits c.used
  obtain ⟨L, hL, hl⟩ := hk'.plain
  have ho := hk'.options
  have hlos := lossless (env := env) (dict := dict) c.sane
  have hu : Usual l.toOptions := ho ▸ usual_new c.sane
  have hok : okRatio l.toOptions = okRatio (defaultOptions opts) := by rw [ho]; rfl
  refine align_empty (rt := rt) (hk'.splits c.sane) (hk'.setup c.sane) _ _ (strips_all rt c.digits _ c.escapeFree) (by simp) L hl
    maxWidth W (by rw [ho]; exact c.scaled) (List.replicate n 0x20) (by rw [ho]; exact pads_new c.sane) hu.tol k hk
    (by rw [parBlocks_bare, paraBlocks_empty hlos]) (by rw [hok]; exact hno) ?_
  rw [parBlocks_bare, syms_paraBlocks]; exact c.exact

end

end Verif.Proofs.LB
