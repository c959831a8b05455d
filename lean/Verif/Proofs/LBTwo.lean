import Verif.Proofs.LBReady

/-! # Two searches compared -/

set_option linter.unusedSectionVars false

namespace Verif.Proofs.LB
open Verif.Go Verif.Model Verif.Model.LB Verif.Spec Verif.Spec.LB

variable {F : Type} [Arith F]

/-- Two lists where the first element that satisfies a predicate is the same. -/
def SameFind {α : Type} (a b : List α) : Prop := ∀ p : α → Bool, a.find? p = b.find? p

theorem SameFind.refl {α : Type} (a : List α) : SameFind a a := fun _ => rfl

theorem SameFind.append {α : Type} {a b c d : List α} (h : SameFind a b) (h' : SameFind c d) :
    SameFind (a ++ c) (b ++ d) := by
  intro p; rw [List.find?_append, List.find?_append, h p, h' p]

theorem SameFind.head {α : Type} {a b : List α} (h : SameFind a b) : a.head? = b.head? := by
  have := h (fun _ => true)
  cases a <;> cases b <;> simpa using this

/-- The new break points at a node. -/
def newPoints (rt : Runtime) (x : Ctx F) (act : List (BreakPoint F)) : List (BreakPoint F) :=
  (rt.order x.index 0).filterMap (fun c => (x.pick act c).map (newBreak x.index c x.tot))

variable [Laws F]

/-- The start of the search. -/
theorem loop_start {l : LineBreaker F} {m : Measure} (hs : Setup l m) {T : List (TN F)} (hT : Para l m T) {W : Int}
    (hW : Room m T W) (rt : Runtime) :
    breakLoop rt l.toOptions (nds T) (Arith.ofInt W)
        (if findStartNode (nds T) 0 = 0 then none else (nds T)[findStartNode (nds T) 0 - 1]?)
        ((nds T).drop (findStartNode (nds T) 0)) (findStartNode (nds T) 0) Sums.zero [rootPoint] =
      breakLoop rt l.toOptions (nds T) (Arith.ofInt W) ((T.take (findStartNode (nds T) 0)).getLast?.map TN.node)
        (nds (T.drop (findStartNode (nds T) 0))) (T.take (findStartNode (nds T) 0)).length
        (sumAt (nds T) (T.take (findStartNode (nds T) 0)).length) [rootPoint] := by
  have hslt : findStartNode (nds T) 0 < T.length := by
    have := (para_start hT).1
    simpa [nds] using this
  have htl : (T.take (findStartNode (nds T) 0)).length = findStartNode (nds T) 0 := by simp; omega
  have e1 : (T.take (findStartNode (nds T) 0)).getLast?.map TN.node =
      (if findStartNode (nds T) 0 = 0 then none else (nds T)[findStartNode (nds T) 0 - 1]?) := by
    by_cases e : findStartNode (nds T) 0 = 0
    · rw [e]; simp
    · rw [if_neg e, List.getLast?_eq_getElem?, htl, List.getElem?_take]
      rw [if_pos (by omega)]
      simp [nds]
  have e2 : nds (T.drop (findStartNode (nds T) 0)) = (nds T).drop (findStartNode (nds T) 0) := by simp [nds]
  have e3 : sumAt (nds T) (findStartNode (nds T) 0) = Sums.zero := by
    have hwT := Room.width hs hW
    rw [sumAt_sumsT hs hT hwT, List.drop_of_length_le (by omega)]; rfl
  rw [htl, e1, e2, e3]

section
variable {l l' : LineBreaker F} {m m' : Measure} (hs : Setup l m) (hs' : Setup l' m') {T T' : List (TN F)} (hT : Para l m T)
  (hT' : Para l' m' T') {W W' : Int} (hW : Room m T W) (hW' : Room m' T' W')
  (hstart : StartsWithPart (symsT T)) (hstart' : StartsWithPart (symsT T')) (ht : Tol l.toOptions) (ht' : Tol l'.toOptions)
  (htame : TameOpts l) (htame' : TameOpts l') (hpos : 0 < W) (hpos' : 0 < W') (rt rt' : Runtime)
  (hrt : ∀ (i n : Nat) (c : Class), c ∈ rt.order i n) (hrt' : ∀ (i n : Nat) (c : Class), c ∈ rt'.order i n)
include hs hs' hT hT' hW hW' hstart hstart' ht ht' htame htame' hpos hpos' hrt hrt'

/-- **Two searches side by side.** -/
theorem loop_two (hlen : T.length = T'.length)
    (hstep : ∀ u x v u' x' v', T = u ++ x :: v → T' = u' ++ x' :: v' → u.length = u'.length →
      (LegalAt (u.getLast?.map TN.node) x.node ↔ LegalAt (u'.getLast?.map TN.node) x'.node) ∧
      (LegalAt (u.getLast?.map TN.node) x.node → findStartNode (nds T) 0 ≤ u.length → ∀ act act',
        Inv l m T W u.length act → Inv l' m' T' W' u'.length act' → SameFind act act' →
        SameFind (newPoints rt (ctxAt l.toOptions (nds T) (Arith.ofInt W) u.length x.node) act)
          (newPoints rt' (ctxAt l'.toOptions (nds T') (Arith.ofInt W') u'.length x'.node) act')))
    (v u v' u' : List (TN F)) (act act' : List (BreakPoint F)) (h : T = u ++ v) (h' : T' = u' ++ v')
    (hu : u.length = u'.length) (hv : v ≠ [])
    (hst : findStartNode (nds T) 0 ≤ u.length) (hst' : findStartNode (nds T') 0 ≤ u'.length)
    (hi : Inv l m T W u.length act) (hi' : Inv l' m' T' W' u'.length act') (hsame : SameFind act act') :
    ∃ res res', breakLoop rt l.toOptions (nds T) (Arith.ofInt W) (u.getLast?.map TN.node) (nds v) u.length
        (sumAt (nds T) u.length) act = .ok res ∧
      breakLoop rt' l'.toOptions (nds T') (Arith.ofInt W') (u'.getLast?.map TN.node) (nds v') u'.length
        (sumAt (nds T') u'.length) act' = .ok res' ∧ SameFind res res' := by
  induction v generalizing u v' u' act act' with
  | nil => exact absurd rfl hv
  | cons x v ih =>
    have hlv : v'.length = v.length + 1 := by
      rw [h, h'] at hlen
      simp at hlen
      omega
    obtain ⟨x', w', rfl⟩ : ∃ x' w', v' = x' :: w' := by
      cases v' with
      | nil => simp at hlv
      | cons a b => exact ⟨a, b, rfl⟩
    simp only [List.length_cons, Nat.add_right_cancel_iff] at hlv
    have hun : ∀ {T u v : List (TN F)} {x : TN F}, T = u ++ x :: v → (nds T) = nds u ++ x.node :: nds v := by
      intro T u v x h; rw [h]; simp [nds]
    have hul : ∀ u : List (TN F), (nds u).length = u.length := by intro u; simp [nds]
    have hgl : ∀ u : List (TN F), (nds u).getLast? = u.getLast?.map TN.node := by
      intro u; unfold nds; exact List.getLast?_map
    have hb := breakLoop_cons rt l.toOptions (nds T) (Arith.ofInt W) (nds u) (nds v) x.node (hun h) (by rw [hul]; exact hst) act
    have hb' := breakLoop_cons rt' l'.toOptions (nds T') (Arith.ofInt W') (nds u') (nds w') x'.node (hun h')
      (by rw [hul]; exact hst') act'
    rw [hul, hgl] at hb hb'
    have e1 : ∀ (x : TN F) v, nds (x :: v) = x.node :: nds v := fun _ _ => rfl
    have e2 : ∀ u (x : TN F), (nds u ++ [x.node]).length = (u ++ [x]).length := by intro u x; simp [nds]
    have e3 : ∀ u (x : TN F), (nds u ++ [x.node]).getLast? = (u ++ [x]).getLast?.map TN.node := by intro u x; simp
    rw [e1, e1, hb, hb', e2, e2, e3, e3]
    have hT1 : T = (u ++ [x]) ++ v := by rw [h]; simp
    have hT1' : T' = (u' ++ [x']) ++ w' := by rw [h']; simp
    have hst1 : findStartNode (nds T) 0 ≤ (u ++ [x]).length := by simp; omega
    have hst1' : findStartNode (nds T') 0 ≤ (u' ++ [x']).length := by simp; omega
    have hu1 : (u ++ [x]).length = (u' ++ [x']).length := by simp [hu]
    obtain ⟨g1, g2⟩ := hstep u x v u' x' w' h h' hu
    by_cases hl : LegalAt (u.getLast?.map TN.node) x.node
    · rw [if_pos hl, if_pos (g1.mp hl)]
      have hn := g2 hl hst act act' hi hi' hsame
      by_cases hv' : v = []
      · have hw' : w' = [] := by subst hv'; simpa using hlv
        obtain ⟨new, k1, _, _, _, k5⟩ := step_new hs hT hW (rootNB_of_start hT hstart) ht htame hpos rt hrt u x v h hst hl act hi
        obtain ⟨new', k1', _, _, _, k5'⟩ := step_new hs' hT' hW' (rootNB_of_start hT' hstart') ht' htame' hpos' rt' hrt' u' x' w' h' hst'
          (g1.mp hl) act' hi'
        rw [k1, k1', hv', hw']
        refine ⟨new, new', by simp [nds, breakLoop], by simp [nds, breakLoop], ?_⟩
        rw [k5, k5']
        exact hn
      · have hw' : w' ≠ [] := by
          rintro rfl
          simp at hlv
          exact hv' (List.eq_nil_of_length_eq_zero hlv.symm)
        obtain ⟨act1, k1, k2, k3⟩ := inv_step hs hT hW (rootNB_of_start hT hstart) ht htame hpos rt hrt u x v h hv' hst hl act hi
        obtain ⟨act1', k1', k2', k3'⟩ := inv_step hs' hT' hW' (rootNB_of_start hT' hstart') ht' htame' hpos' rt' hrt' u' x' w' h' hw' hst'
          (g1.mp hl) act' hi'
        rw [k1, k1', ok_bind, ok_bind]
        refine ih _ _ _ _ _ hT1 hT1' hu1 hv' hst1 hst1' k2 k2' ?_
        rw [k3, k3']
        exact hsame.append hn
    · rw [if_neg hl, if_neg (fun e => hl (g1.mpr e)), ok_bind, ok_bind]
      have hfin : ∀ {l : LineBreaker F} {m : Measure} {T u v : List (TN F)} {x : TN F}, Para l m T → T = u ++ x :: v →
          ¬ LegalAt (u.getLast?.map TN.node) x.node → v ≠ [] := by
        rintro l m T u v x hT h hl rfl
        apply hl
        right
        have := ((hT.facts u x [] h).last rfl).2.1
        rw [this]
        refine ⟨rfl, ?_⟩
        simp [newPenalty, minusInfinity, infinity, eq_small (F := F) (-10000) 10000 (by decide) (by decide)]
      have hinv : ∀ {l : LineBreaker F} {m : Measure} {W : Int} {T u v : List (TN F)} {x : TN F} {act : List (BreakPoint F)},
          T = u ++ x :: v → ¬ LegalAt (u.getLast?.map TN.node) x.node → Inv l m T W u.length act →
          Inv l m T W (u ++ [x]).length act := by
        intro l m W T u v x act h hl hi
        refine ⟨?_, hi.root, hi.first, hi.order, hi.tight, ?_, hi.sorted, hi.early⟩
        · intro a ha
          have := hi.ok a ha
          refine ⟨this.1, ?_⟩
          simp; omega
        · intro pos hr hlt
          by_cases he : pos = u.length
          · subst he
            exact absurd (reach_legal u x v h hr) hl
          · exact hi.reach pos hr (by simp at hlt; omega)
      exact ih _ _ _ _ _ hT1 hT1' hu1 (hfin hT h hl) hst1 hst1' (hinv h hl hi)
        (hinv h' (fun e => hl (g1.mpr e)) hi') hsame

end

/-! ## Two walks of the map of candidates -/

theorem find_only {α β : Type} [DecidableEq α] (f : α → Option β) (k : α) (hf : ∀ c, c ≠ k → f c = none) (o : List α) (h : k ∈ o)
    (p : β → Bool) : (o.filterMap f).find? p = (f k).toList.find? p := by
  induction o with
  | nil => cases h
  | cons c o ih =>
    by_cases hc : c = k
    · subst hc
      cases hk : f c with
      | none =>
        rw [List.filterMap_cons_none hk]
        by_cases hm : c ∈ o
        · rw [ih hm, hk]
        · have : o.filterMap f = [] := by
            rw [List.filterMap_eq_nil_iff]
            intro x hx
            exact hf x (fun e => hm (e ▸ hx))
          rw [this]; rfl
      | some b =>
        rw [List.filterMap_cons_some hk, List.find?_cons]
        cases hp : p b with
        | true => simp [hp]
        | false =>
          simp only [Option.toList, List.find?_cons, hp, List.find?_nil]
          by_cases hm : c ∈ o
          · rw [ih hm, hk]; simp [hp]
          · have : o.filterMap f = [] := by
              rw [List.filterMap_eq_nil_iff]
              intro x hx
              exact hf x (fun e => hm (e ▸ hx))
            rw [this]; rfl
    · rw [List.filterMap_cons_none (hf c hc)]
      refine ih ?_
      rw [List.mem_cons] at h
      rcases h with e | e
      · exact absurd e.symm hc
      · exact e

theorem newPoints_one {rt rt' : Runtime} (hrt : ∀ (i n : Nat) (c : Class), c ∈ rt.order i n)
    (hrt' : ∀ (i n : Nat) (c : Class), c ∈ rt'.order i n) (x : Ctx F) (act act' : List (BreakPoint F))
    (hone : ∀ a ∈ act, x.feas a = true → x.cls a = .one) (h : SameFind act act') :
    SameFind (newPoints rt x act) (newPoints rt' x act') := by
  have hp : ∀ c, x.pick act' c = x.pick act c := fun c => (h _).symm
  have hnone : ∀ c, c ≠ .one → (x.pick act c).map (newBreak x.index c x.tot) = none := by
    intro c hc
    cases hk : x.pick act c with
    | none => rfl
    | some a =>
      exfalso
      have h1 := List.find?_some hk
      simp only [Bool.and_eq_true, decide_eq_true_eq] at h1
      exact hc (h1.2.symm.trans (hone a (List.mem_of_find?_eq_some hk) h1.1))
  intro p
  unfold newPoints
  simp only [hp]
  rw [find_only _ .one hnone _ (hrt _ _ _) p, find_only _ .one hnone _ (hrt' _ _ _) p]

/-- When every feasible line has the same class, the walk of the map does not matter. -/
theorem align_walks {rt rt' : Runtime} (hrt : ∀ (i n : Nat) (c : Class), c ∈ rt.order i n)
    (hrt' : ∀ (i n : Nat) (c : Class), c ∈ rt'.order i n) {env : Env} {l : LineBreaker F}
    {sp : Splitter} (hsp : Splits env l sp)
    {m : Measure} (hs : Setup l m) (tokens : List (List Rune)) (tks : List (List Span))
    (hst : List.Forall₂ (Strips rt env) tokens tks) (hst' : List.Forall₂ (Strips rt' env) tokens tks)
    (hne : tokens ≠ []) (L : List Piece) (hL : l.attrList = lv 0 L)
    (maxWidth : F) (W : Int) (hW : l.scale maxWidth = Arith.ofInt W) (hpos : 0 < W)
    (ht : Tol l.toOptions) (htame : TameOpts l) (hstart : StartsWithPart (syms (parBlocks sp tks)))
    (hB : lineWidth m (syms (parBlocks sp tks)) + m.hyphen + |W| ≤ Laws.bound F)
    (htol : Arith.le l.tolerance (Arith.tenths 5) = true) :
    leftAlignUniform rt env l tokens maxWidth = leftAlignUniform rt' env l tokens maxWidth := by
  obtain ⟨T, hTd⟩ : ∃ T, T = parNodes l m L.length (parBlocks sp tks) := ⟨_, rfl⟩
  have hT : Para l m T := hTd ▸ para_parNodes hs L.length (parBlocks sp tks) (noSoft_par sp tks)
  have hsy : symsT T = syms (parBlocks sp tks) := by rw [hTd]; exact symsT_parNodes _ _
  have hroom : Room m T W := ⟨by rw [hsy]; exact hB⟩
  have hstart' : StartsWithPart (symsT T) := by rw [hsy]; exact hstart
  obtain ⟨act, h1, _, h2⟩ := align_eq hsp hs tokens tks hst hne L hL maxWidth T hTd
  obtain ⟨act', h1', _, h2'⟩ := align_eq (rt := rt') hsp hs tokens tks hst' hne L hL maxWidth T hTd
  rw [hW, loop_start hs hT hroom] at h1 h1'
  have hslt : findStartNode (nds T) 0 < T.length := by
    have := (para_start hT).1
    simpa [nds] using this
  have htl : (T.take (findStartNode (nds T) 0)).length = findStartNode (nds T) 0 := by simp; omega
  have hi0 : Inv l m T W (T.take (findStartNode (nds T) 0)).length [rootPoint] := by
    rw [htl]; exact inv_root hs hT hroom
  obtain ⟨res, res', k1, k2, k3⟩ := loop_two hs hs hT hT hroom hroom hstart' hstart' ht ht htame htame hpos hpos rt rt' hrt hrt'
    rfl (by
      intro u x v u' x' v' a1 a2 a3
      obtain ⟨rfl, a4⟩ := List.append_inj (a1.symm.trans a2) a3
      obtain ⟨rfl, rfl⟩ := List.cons.inj a4
      refine ⟨Iff.rfl, fun hl hst act act' hi hi' hsame => newPoints_one hrt hrt' _ act act' ?_ hsame⟩
      intro a ha hf
      have hcut := (hT.facts u x v a1).legal hl
      have hTl : T.length = u.length + (v.length + 1) := by rw [a1]; simp
      have hap : a.position < T.length := by
        have := (hi.ok a ha).2
        omega
      have hr := ratio_pos hs hT hroom (o := l.toOptions) u x v a1 hst hcut a (by
        rcases chain_tot hs hT hroom (hi.ok a ha).1 with e | e
        · left; rw [e]; rfl
        · exact Or.inr e.1) hap
      unfold Ctx.feas at hf
      simp only [Bool.and_eq_true] at hf
      unfold Ctx.cls newFitnessClass
      rw [if_neg (by rw [Laws.minus_half _ hr]; simp), if_pos (Laws.le_trans _ _ _ hf.2 htol)])
    (T.drop (findStartNode (nds T) 0)) (T.take (findStartNode (nds T) 0)) (T.drop (findStartNode (nds T) 0))
    (T.take (findStartNode (nds T) 0)) [rootPoint] [rootPoint] (by simp) (by simp) rfl
    (by intro e; have := congrArg List.length e; simp at this; omega) (by omega) (by omega) hi0 hi0 (SameFind.refl _)
  rw [h1] at k1
  rw [h1'] at k2
  cases k1
  cases k2
  rw [h2, h2', k3.head]

end Verif.Proofs.LB
