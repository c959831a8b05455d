import Verif.Proofs.Steps
import Verif.Proofs.LBWalk
import Verif.Proofs.LBReady
import Mathlib.Data.List.Nodup

/-! # Steps taken by the search, from below -/

set_option linter.unusedSectionVars false

namespace Verif.Proofs.LB
open Verif.Go Verif.Model Verif.Model.LB Verif.Spec Verif.Spec.Ansi Verif.Spec.LB

section
variable {F : Type} [Arith F]

/-- Each active break point is seen. -/
theorem mainLoopOnC_sees (rt : Runtime) (l : Options F) (nodes : List (Node F)) (ideal : F) (sum : Sums F)
    (index : Nat) (node : Node F) : ∀ (act seen : List (BreakPoint F)) (c : Candidates F) (low : F) (act' : List (BreakPoint F)),
    (mainLoopOnC rt l nodes ideal sum index node act seen c low).res = .ok act' →
      act.length ≤ (mainLoopOnC rt l nodes ideal sum index node act seen c low).steps
  | [], _, _, _, _, _ => Nat.zero_le _
  | active :: rest, seen, c, low, act', h => by
    have ih := mainLoopOnC_sees rt l nodes ideal sum index node rest
    unfold mainLoopOnC Counted.round Counted.andThen Counted.of at h ⊢
    simp only [List.length_cons] at h ⊢
    by_cases hf : (Arith.le (Arith.ofInt (-1)) (adjustmentRatio active.totals node sum ideal) &&
      Arith.le (adjustmentRatio active.totals node sum ideal) l.tolerance) = true
    · simp only [if_pos hf] at h ⊢
      cases hd : demeritsAndClass l nodes active node (adjustmentRatio active.totals node sum ideal) with
      | error e => rw [hd] at h; cases h
      | ok d =>
        rw [hd] at h
        simp only [ok_bind, pure_eq_ok] at h ⊢
        split at h
        · rename_i hc
          rw [if_pos hc]
          have := ih _ _ _ _ h
          simp only []
          omega
        · rename_i hc
          rw [if_neg hc]
          have := ih _ _ _ _ h
          omega
    · simp only [if_neg hf, pure_eq_ok] at h ⊢
      split at h
      · rename_i hc
        rw [if_pos hc]
        have := ih _ _ _ _ h
        simp only []
        omega
      · rename_i hc
        rw [if_neg hc]
        have := ih _ _ _ _ h
        omega

open Classical in
/-- One round of the loop over the nodes. -/
theorem breakLoopC_cons (rt : Runtime) (l : Options F) (nodes : List (Node F)) (ideal : F)
    (u v : List (Node F)) (x : Node F) (h : nodes = u ++ x :: v) (hs : findStartNode nodes 0 ≤ u.length)
    (act : List (BreakPoint F)) :
    breakLoopC rt l nodes ideal u.getLast? (x :: v) u.length (sumAt nodes u.length) act =
      Counted.round ((if LegalAt u.getLast? x then
          mainLoopC rt l nodes ideal (sumAt nodes u.length) u.length x act else .of (.ok act)).andThen
        fun act' => breakLoopC rt l nodes ideal (u ++ [x]).getLast? v (u ++ [x]).length
          (sumAt nodes (u ++ [x]).length) act') := by
  have e3 : (u ++ [x]).length = u.length + 1 := by simp
  have e4 : (u ++ [x]).getLast? = some x := by simp
  rw [e3, e4, sumAt_succ nodes u v x h hs]
  rw [breakLoopC]
  congr 1
  cases hk : x.kind with
  | box =>
    have : ¬ LegalAt u.getLast? x := by
      rintro (⟨g, _⟩ | ⟨g, _⟩) <;> rw [hk] at g <;> cases g
    rw [if_neg this]
    simp [sumNode, hk, Counted.andThen, Counted.of]
  | glue =>
    by_cases hg : u.getLast?.map Node.kind = some .box
    · have hl : LegalAt u.getLast? x := Or.inl ⟨hk, hg⟩
      have hp : u.length > 0 := by
        cases u with
        | nil => simp at hg
        | cons a b => simp
      simp only
      rw [if_pos hl, if_pos ⟨hp, hg⟩]
      simp [sumNode, hk]
    · have hl : ¬ LegalAt u.getLast? x := by
        rintro (⟨_, g⟩ | ⟨g, _⟩)
        · exact hg g
        · rw [hk] at g; cases g
      simp only
      rw [if_neg hl, if_neg (fun c => hg c.2)]
      simp [sumNode, hk]
  | penalty =>
    by_cases hg : Arith.eq x.penalty infinity = true
    · have hl : ¬ LegalAt u.getLast? x := by
        rintro (⟨g, _⟩ | ⟨_, g⟩)
        · rw [hk] at g; cases g
        · rw [hg] at g; cases g
      simp only
      rw [if_neg hl, if_neg (by simpa using hg)]
      simp [sumNode, hk]
    · have hl : LegalAt u.getLast? x := Or.inr ⟨hk, by simpa using hg⟩
      simp only
      rw [if_pos hl, if_pos (by simpa using hg)]
      simp [sumNode, hk]

theorem Counted.andThen_ok {α β : Type} {x : Counted α} {a : α} (h : x.res = .ok a) (f : α → Counted β) :
    (x.andThen f).steps = x.steps + (f a).steps := by
  unfold Counted.andThen
  rw [h]

/-- The numbers below `n`. -/
def below (ps : List Nat) (n : Nat) : List Nat := ps.filter (fun p => decide (p < n))

theorem below_succ {ps : List Nat} (hn : ps.Nodup) (n : Nat) :
    (below ps (n + 1)).length = (below ps n).length + if n ∈ ps then 1 else 0 := by
  induction ps with
  | nil => rfl
  | cons p ps ih =>
    rw [List.nodup_cons] at hn
    have ih := ih hn.2
    unfold below at ih ⊢
    by_cases h : p = n
    · subst h
      simp [hn.1] at ih ⊢
      exact ih
    · have h' : n ≠ p := fun e => h e.symm
      by_cases hlt : p < n
      · have : p < n + 1 := by omega
        simp only [List.filter_cons, hlt, this, decide_true, if_true, List.length_cons, ih, List.mem_cons, h', false_or]
        omega
      · have : ¬ p < n + 1 := by omega
        simp only [List.filter_cons, hlt, this, decide_false, List.mem_cons, h', false_or]
        exact ih

end

section
variable {F : Type} [Arith F] [Laws F] {l : LineBreaker F} {m : Measure} (hs : Setup l m) {T : List (TN F)} (hT : Para l m T)
  {W : Int} (hW : Room m T W) (hroot : RootNB l T W) (ht : Tol l.toOptions) (htame : TameOpts l) (hpos : 0 < W) (rt : Runtime)
  (hrt : ∀ (i n : Nat) (c : Class), c ∈ rt.order i n)
include hs hT hW hroot ht htame hpos hrt

/-- There is an active break point for each place reached so far. -/
theorem active_below {u : Nat} {act : List (BreakPoint F)} (hi : Inv l m T W u act) {ps : List Nat} (hn : ps.Nodup)
    (hp : ∀ p ∈ ps, Reach l m T W false p) : (below ps u).length ≤ act.length := by
  have h1 : (below ps u).Nodup := hn.filter _
  have h2 : below ps u ⊆ act.map (fun a => a.position) := by
    intro p h
    unfold below at h
    simp only [List.mem_filter, decide_eq_true_eq] at h
    obtain ⟨a, ha, hr, _⟩ := hi.reach p (hp p h.1) h.2
    exact List.mem_map.mpr ⟨a, ha, hr⟩
  have := h1.length_le_of_subset h2
  simpa using this

/-- The search, from below: each place reached is compared with all those before it. -/
theorem loop_steps {ps : List Nat} (hn : ps.Nodup) (hp : ∀ p ∈ ps, Reach l m T W false p)
    (v u : List (TN F)) (act : List (BreakPoint F)) (h : T = u ++ v) (hv : v ≠ [])
    (hst : findStartNode (nds T) 0 ≤ u.length) (hi : Inv l m T W u.length act) :
    (below ps T.length).length * (below ps T.length).length + (below ps u.length).length ≤
      2 * (breakLoopC rt l.toOptions (nds T) (Arith.ofInt W) (u.getLast?.map TN.node) (nds v) u.length
        (sumAt (nds T) u.length) act).steps + (below ps T.length).length +
        (below ps u.length).length * (below ps u.length).length := by
  induction v generalizing u act with
  | nil => exact absurd rfl hv
  | cons x v ih =>
    have hun : (nds T) = nds u ++ x.node :: nds v := by rw [h]; simp [nds]
    have hul : (nds u).length = u.length := by simp [nds]
    have hgl : (nds u).getLast? = u.getLast?.map TN.node := by
      unfold nds; exact List.getLast?_map
    have hb := breakLoopC_cons rt l.toOptions (nds T) (Arith.ofInt W) (nds u) (nds v) x.node hun (by rw [hul]; exact hst) act
    rw [hul, hgl] at hb
    have e1 : nds (x :: v) = x.node :: nds v := rfl
    have e2 : (nds u ++ [x.node]).length = (u ++ [x]).length := by simp [nds]
    have e3 : (nds u ++ [x.node]).getLast? = (u ++ [x]).getLast?.map TN.node := by simp
    rw [e1, hb, e2, e3]
    have h' : T = (u ++ [x]) ++ v := by rw [h]; simp
    have hst' : findStartNode (nds T) 0 ≤ (u ++ [x]).length := by simp; omega
    have hlen : (u ++ [x]).length = u.length + 1 := by simp
    have hbs := below_succ hn u.length
    rw [← hlen] at hbs
    have hact := active_below hs hT hW hroot ht htame hpos rt hrt hi hn hp
    by_cases hl : LegalAt (u.getLast?.map TN.node) x.node
    · rw [if_pos hl]
      by_cases hv' : v = []
      · subst hv'
        obtain ⟨new, h1, h2, _, _, hnew⟩ := step_new hs hT hW hroot ht htame hpos rt hrt u x [] h hst hl act hi
        have h1' : (mainLoopC rt l.toOptions (nds T) (Arith.ofInt W) (sumAt (nds T) u.length) u.length x.node act).res =
            .ok new := by
          unfold mainLoopC
          rw [mainLoopOnC_res]
          simpa [stepRes, ctxAt, mainLoop] using h1
        have hsee := mainLoopOnC_sees _ _ _ _ _ _ _ _ _ _ _ _ h1'
        unfold Counted.round
        rw [Counted.andThen_ok h1']
        have hTl : T.length = (u ++ [x]).length := by rw [h']; simp
        rw [hTl, hbs]
        unfold mainLoopC
        generalize (mainLoopOnC rt l.toOptions (nds T) (Arith.ofInt W) (sumAt (nds T) u.length) u.length x.node act []
          defaultCandidates Arith.maxFloat).steps = k at hsee ⊢
        generalize (below ps u.length).length = b at hact ⊢
        by_cases hm : u.length ∈ ps
        · rw [if_pos hm]
          simp only [Nat.mul_add, Nat.add_mul, Nat.mul_one, Nat.one_mul]
          omega
        · rw [if_neg hm]
          simp only [Nat.add_zero]
          omega
      · obtain ⟨act', h1, h2, h3⟩ := inv_step hs hT hW hroot ht htame hpos rt hrt u x v h hv' hst hl act hi
        have h1' : (mainLoopC rt l.toOptions (nds T) (Arith.ofInt W) (sumAt (nds T) u.length) u.length x.node act).res =
            .ok act' := by
          unfold mainLoopC
          rw [mainLoopOnC_res]
          simpa [stepRes, ctxAt, mainLoop] using h1
        have hsee := mainLoopOnC_sees _ _ _ _ _ _ _ _ _ _ _ _ h1'
        unfold Counted.round
        rw [Counted.andThen_ok h1']
        have := ih _ _ h' hv' hst' h2
        rw [hbs] at this
        unfold mainLoopC
        generalize (mainLoopOnC rt l.toOptions (nds T) (Arith.ofInt W) (sumAt (nds T) u.length) u.length x.node act []
          defaultCandidates Arith.maxFloat).steps = k at hsee ⊢
        generalize (below ps u.length).length = b at hact this ⊢
        by_cases hm : u.length ∈ ps
        · rw [if_pos hm] at this
          simp only [Nat.mul_add, Nat.add_mul, Nat.mul_one, Nat.one_mul] at this ⊢
          omega
        · rw [if_neg hm] at this
          simp only [Nat.add_zero] at this
          simp only [Nat.mul_add]
          omega
    · rw [if_neg hl]
      have hv' : v ≠ [] := by
        rintro rfl
        apply hl
        right
        have := ((hT.facts u x [] h).last rfl).2.1
        rw [this]
        refine ⟨rfl, ?_⟩
        simp [newPenalty, minusInfinity, infinity, eq_small (F := F) (-10000) 10000 (by decide) (by decide)]
      have hi' : Inv l m T W (u ++ [x]).length act := by
        refine ⟨?_, hi.root, hi.first, hi.order, hi.tight, ?_, hi.sorted, hi.early⟩
        · intro a ha
          have := hi.ok a ha
          refine ⟨this.1, ?_⟩
          simp; omega
        · intro pos hr hlt
          by_cases he : pos = u.length
          · subst he
            exact absurd (reach_legal u x v h hr) hl
          · exact hi.reach pos hr (by simp at hlt; omega)
      have hm : u.length ∉ ps := fun hm => hl (reach_legal u x v h (hp _ hm))
      have := ih _ _ h' hv' hst' hi'
      rw [hbs, if_neg hm, Nat.add_zero] at this
      unfold Counted.round
      rw [Counted.andThen_ok rfl]
      simp only [Counted.of, Nat.mul_add]
      omega

end

section
variable {F : Type} [Arith F] [Laws F]

omit [Laws F] in
theorem breakPointsC_loop (rt : Runtime) (l : Options F) (nodes : List (Node F)) (ideal : F) :
    (breakLoopC rt l nodes ideal (if findStartNode nodes 0 = 0 then none else nodes[findStartNode nodes 0 - 1]?)
      (nodes.drop (findStartNode nodes 0)) (findStartNode nodes 0) Sums.zero [rootPoint]).steps ≤
      (breakPointsC rt l nodes ideal).steps := by
  unfold breakPointsC
  simp only [findStartNodeC_res]
  unfold Counted.andThen
  cases (breakLoopC rt l nodes ideal (if findStartNode nodes 0 = 0 then none else nodes[findStartNode nodes 0 - 1]?)
      (nodes.drop (findStartNode nodes 0)) (findStartNode nodes 0) Sums.zero [rootPoint]).res with
  | error e => exact Nat.le_add_left _ _
  | ok act => exact Nat.le_trans (Nat.le_add_right _ _) (Nat.le_add_left _ _)

/-- The search, from below: with `k` places where lines may start, at least `k * (k - 1) / 2` rounds. -/
theorem align_steps {rt : Runtime} (hrt : ∀ (i n : Nat) (c : Class), c ∈ rt.order i n) {env : Env} {l : LineBreaker F}
    {sp : Splitter} (hsp : Splits env l sp)
    {m : Measure} (hs : Setup l m) (tokens : List (List Rune)) (tks : List (List Span))
    (hst : List.Forall₂ (Strips rt env) tokens tks) (hne : tokens ≠ []) (L : List Piece) (hL : l.attrList = lv 0 L)
    (maxWidth : F) (W : Int) (hW : l.scale maxWidth = Arith.ofInt W) (hpos : 0 < W)
    (ht : Tol l.toOptions) (htame : TameOpts l) (hstart : StartsWithPart (syms (parBlocks sp tks)))
    (hB : lineWidth m (syms (parBlocks sp tks)) + m.hyphen + |W| ≤ Laws.bound F) (rests : List (List Sym)) (hn : rests.Nodup)
    (hr : ∀ r ∈ rests, Left (Acceptable m W (okRatio l.toOptions)) (syms (parBlocks sp tks)) false r) :
    rests.length * rests.length ≤ 2 * searchSteps rt env l tokens maxWidth + rests.length := by
  obtain ⟨T, hTd⟩ : ∃ T, T = parNodes l m L.length (parBlocks sp tks) := ⟨_, rfl⟩
  have hT : Para l m T := hTd ▸ para_parNodes hs L.length (parBlocks sp tks) (noSoft_par sp tks)
  have hsy : symsT T = syms (parBlocks sp tks) := by rw [hTd]; exact symsT_parNodes _ _
  have hroom : Room m T W := ⟨by rw [hsy]; exact hB⟩
  have hstart' : StartsWithPart (symsT T) := by rw [hsy]; exact hstart
  rw [← hsy] at hr
  unfold searchSteps
  rw [leftAlignedNodes_eq hsp m tokens tks hst hne L hL, ← hTd]
  simp only []
  rw [hW]
  refine Nat.le_trans ?_ (Nat.add_le_add_right (Nat.mul_le_mul_left 2 (breakPointsC_loop _ _ _ _)) _)
  -- the places
  obtain ⟨ps, p1, p2, p3, p4⟩ : ∃ ps : List Nat, ps.Nodup ∧ (∀ p ∈ ps, Reach l m T W false p) ∧ (∀ p ∈ ps, p < T.length) ∧
      ps.length = rests.length := by
    have key : ∀ r, ∃ pos, r ∈ rests → Reach l m T W false pos ∧ pos < T.length ∧ r = startLine (symsT (T.drop pos)) := by
      intro r
      by_cases h : r ∈ rests
      · obtain ⟨pos, k⟩ := reach_left hs hT hstart' (hr r h)
        exact ⟨pos, fun _ => k⟩
      · exact ⟨0, fun h' => absurd h' h⟩
    obtain ⟨f, hf⟩ := Classical.axiomOfChoice key
    refine ⟨rests.map f, ?_, ?_, ?_, by simp⟩
    · refine List.Nodup.map_on ?_ hn
      intro a ha b hb e
      rw [(hf a ha).2.2, (hf b hb).2.2, e]
    · intro p hp
      obtain ⟨r, h1, rfl⟩ := List.mem_map.mp hp
      exact (hf r h1).1
    · intro p hp
      obtain ⟨r, h1, rfl⟩ := List.mem_map.mp hp
      exact (hf r h1).2.1
  have hslt : findStartNode (nds T) 0 < T.length := by
    have := (para_start hT).1
    simpa [nds] using this
  have htl : (T.take (findStartNode (nds T) 0)).length = findStartNode (nds T) 0 := by simp; omega
  have hinv := inv_root hs hT hroom
  have k1 := loop_steps hs hT hroom (rootNB_of_start hT hstart') ht htame hpos rt hrt p1 p2 (T.drop (findStartNode (nds T) 0))
    (T.take (findStartNode (nds T) 0)) [rootPoint] (by simp) (by
      intro e; have := congrArg List.length e; simp at this; omega) (by omega) (by
      rw [htl]; exact hinv)
  have hb := active_below hs hT hroom (rootNB_of_start hT hstart') ht htame hpos rt hrt hinv p1 p2
  rw [htl] at k1
  have e1 : (T.take (findStartNode (nds T) 0)).getLast?.map TN.node =
      (if findStartNode (nds T) 0 = 0 then none else (nds T)[findStartNode (nds T) 0 - 1]?) := by
    by_cases e : findStartNode (nds T) 0 = 0
    · rw [e]; simp
    · rw [if_neg e, List.getLast?_eq_getElem?, htl, List.getElem?_take]
      rw [if_pos (by omega)]
      simp [nds]
  have e2 : nds (T.drop (findStartNode (nds T) 0)) = (nds T).drop (findStartNode (nds T) 0) := by simp [nds]
  have e3 : sumAt (nds T) (findStartNode (nds T) 0) = Sums.zero := by
    have hwT := Room.width hs hroom
    rw [sumAt_sumsT hs hT hwT, List.drop_of_length_le (by omega)]; rfl
  rw [e1, e2, e3] at k1
  have e4 : (below ps T.length).length = rests.length := by
    rw [← p4]
    unfold below
    rw [List.filter_eq_self.mpr]
    intro p hp
    simpa using p3 p hp
  rw [e4] at k1
  generalize (below ps (findStartNode (nds T) 0)).length = b at k1 hb
  simp only [List.length_cons, List.length_nil] at hb
  have hbb : b * b ≤ b := by
    rcases Nat.lt_or_ge b 1 with h | h
    · have : b = 0 := by omega
      subst this; rfl
    · have : b = 1 := by omega
      subst this; rfl
  omega

end

section
variable {F : Type} [Arith F] [Laws F] {rt : Runtime} {env : Env} {dict : Dictionary} {opts : List (Opt F)}
  {text : List Rune → Int} {n : Nat} {l : LineBreaker F} {tokens : List (List Rune)} {maxWidth : F} {W : Int}

theorem call_steps (c : Call rt env dict opts text n l tokens maxWidth W) (hpos : 0 < W)
    (hstart : StartsWithPart (paraSyms (splitterOf env dict (defaultOptions opts)) tokens))
    (rests : List (List Sym)) (hn : rests.Nodup)
    (hr : ∀ r ∈ rests, Left (Acceptable (measureOf (defaultOptions opts) text) W (okRatio (defaultOptions opts)))
      (paraSyms (splitterOf env dict (defaultOptions opts)) tokens) false r) :
    rests.length * rests.length ≤ 2 * searchSteps rt env l tokens maxWidth + rests.length := by
  have hk := kept_used c.sane c.digits c.used
  obtain ⟨L, hL, hl⟩ := hk.plain
  have hne : tokens ≠ [] := by
    rintro rfl
    obtain ⟨t, r, e⟩ := hstart
    cases e
  have ho := hk.options
  have hsy : syms (parBlocks (splitterOf env dict (defaultOptions opts)) (tokens.map bare)) =
      paraSyms (splitterOf env dict (defaultOptions opts)) tokens := by
    rw [parBlocks_bare, syms_paraBlocks]
  have hu : Usual l.toOptions := ho ▸ usual_new c.sane
  have hok : okRatio l.toOptions = okRatio (defaultOptions opts) := by rw [ho]; rfl
  exact align_steps (rt := rt) c.walks (hk.splits c.sane) (hk.setup c.sane) tokens _
    (strips_all rt c.digits tokens c.escapeFree) hne L hl
    maxWidth W (by rw [ho]; exact c.scaled) hpos hu.tol
    (hu.tame (hk.setup c.sane)) (by rw [hsy]; exact hstart) (by rw [hsy]; exact c.exact) rests hn
    (by rw [hsy, hok]; exact hr)

end

/-! ## How many nodes -/

/-- What the nodes of a symbol amount to, at most. -/
def nodesOf : Sym → Nat
  | .part _ => 1
  | .gap => 3
  | _ => 4

/-- What the nodes of symbols amount to, at most. -/
def weight (ss : List Sym) : Nat := (ss.map nodesOf).sum

theorem weight_append (a b : List Sym) : weight (a ++ b) = weight a + weight b := by
  simp [weight]

theorem weight_flatMap {f : List Rune → List Sym} (hf : ∀ t, t ≠ [] → weight (f t) ≤ 5 * t.length) :
    ∀ ts : List (List Rune), [] ∉ ts → weight (ts.flatMap f) ≤ 5 * ts.flatten.length
  | [], _ => Nat.zero_le _
  | t :: ts, h => by
    rw [List.mem_cons, not_or] at h
    have h1 := weight_flatMap hf ts h.2
    have h2 := hf t (fun e => h.1 e.symm)
    rw [List.flatMap_cons, weight_append, List.flatten_cons, List.length_append]
    omega

theorem weight_parts : ∀ ts : List (List Rune), [] ∉ ts →
    weight ((ts.map Sym.part).intersperse .soft) ≤ 5 * ts.flatten.length
  | [], _ => Nat.zero_le _
  | [t], h => by
    have : t ≠ [] := fun e => h (by simp [e])
    have := List.length_pos_iff.mpr this
    simp [weight, nodesOf]
    omega
  | t :: u :: ts, h => by
    rw [List.mem_cons, not_or] at h
    have ih := weight_parts (u :: ts) h.2
    have := List.length_pos_iff.mpr (fun e => h.1 e.symm : t ≠ [])
    simp only [List.map_cons, List.intersperse_cons₂] at ih ⊢
    rw [List.flatten_cons, List.length_append]
    simp only [weight, List.map_cons, List.sum_cons, nodesOf] at ih ⊢
    omega

theorem weight_token {sp : Splitter} (hl : sp.Lossless) (t : List Rune) : weight (tokenSyms sp t) ≤ 5 * t.length := by
  have hword : sp.breakWords = true → ∀ w, w ≠ [] → weight (wordSyms sp w) ≤ 5 * w.length := by
    intro hb w hw
    have := List.length_pos_iff.mpr hw
    unfold wordSyms
    split
    · simp [weight, nodesOf]; omega
    · have h := hl.syllables hb w hw
      conv_rhs => rw [← h.1]
      exact weight_parts _ h.2
  have hchunk : ∀ p, p ≠ [] → weight (chunkSyms sp p) ≤ 5 * p.length := by
    intro p hp
    have := List.length_pos_iff.mpr hp
    unfold chunkSyms
    split
    · simp [weight, nodesOf]; omega
    · split
      · simp [weight, nodesOf]; omega
      · rename_i h
        have hb : sp.breakWords = true := by
          by_contra hb
          exact h (Or.inl (by simpa using hb))
        have h := hl.hyphens p
        conv_rhs => rw [← h.1]
        exact weight_flatMap (hword hb) _ h.2
  have h := hl.marks t
  conv_rhs => rw [← h.1]
  exact weight_flatMap hchunk _ h.2

theorem weight_para {sp : Splitter} (hl : sp.Lossless) : ∀ tokens : List (List Rune),
    weight (paraSyms sp tokens) ≤ 5 * tokens.flatten.length + 3 * (tokens.length - 1)
  | [] => Nat.zero_le _
  | [t] => by
    have := weight_token hl t
    simpa [paraSyms] using this
  | t :: u :: ts => by
    have h1 := weight_token hl t
    have h2 := weight_para hl (u :: ts)
    have e : paraSyms sp (t :: u :: ts) = tokenSyms sp t ++ .gap :: paraSyms sp (u :: ts) := rfl
    have e2 : weight (.gap :: paraSyms sp (u :: ts)) = 3 + weight (paraSyms sp (u :: ts)) := by simp [weight, nodesOf]
    rw [e, weight_append, e2, List.flatten_cons, List.length_append]
    simp only [List.length_cons] at h2 ⊢
    omega

section
variable {F : Type} [Arith F]

theorem tn_length (l : LineBreaker F) (m : Measure) (k : Nat) (b : Block) : (b.tn l m k).length ≤ weight b.syms := by
  cases b with
  | soft => by_cases h : l.renderHyphens = true <;> simp [Block.tn, Block.syms, weight, nodesOf, softT, h]
  | _ => simp [Block.tn, Block.syms, weight, nodesOf, markT, gapT]

theorem tns_length (l : LineBreaker F) (m : Measure) : ∀ (bs : List Block) (k : Nat),
    (tns l m k bs).length ≤ weight (syms bs)
  | [], _ => Nat.zero_le _
  | b :: bs, k => by
    have h1 := tn_length l m k b
    have h2 := tns_length l m bs (k + b.text.length)
    have e : syms (b :: bs) = b.syms ++ syms bs := by simp [syms]
    rw [e, weight_append, tns, List.length_append]
    omega

theorem parNodes_length (l : LineBreaker F) (m : Measure) (k : Nat) (bs : List Block) :
    (parNodes l m k bs).length ≤ weight (syms bs) + 2 := by
  have := tns_length l m bs k
  simp only [parNodes, List.length_append, finT, List.length_cons, List.length_nil]
  omega

end

section
variable {F : Type} [Arith F] [Laws F] {rt : Runtime} {env : Env} {dict : Dictionary} {opts : List (Opt F)}
  {text : List Rune → Int} {n : Nat} {l : LineBreaker F} {tokens : List (List Rune)}

/-- The number of nodes of a paragraph. -/
theorem call_nodes (hs : Sane (defaultOptions opts) text n) (hd : AsciiDigits env) (hu : Used env dict opts l)
    (he : ∀ t ∈ tokens, EscapeFree t) (hne : tokens ≠ []) : ∃ nodes attrs,
    leftAlignedNodes rt env l tokens = .ok (nodes, attrs) ∧
      nodes.length ≤ 5 * tokens.flatten.length + 3 * (tokens.length - 1) + 2 := by
  have hk := kept_used hs hd hu
  obtain ⟨L, hL, hl⟩ := hk.plain
  refine ⟨_, _, leftAlignedNodes_eq (hk.splits hs) (measureOf (defaultOptions opts) text) tokens _
    (strips_all rt hd tokens he) hne L hl, ?_⟩
  have hsy : syms (parBlocks (splitterOf env dict (defaultOptions opts)) (tokens.map bare)) =
      paraSyms (splitterOf env dict (defaultOptions opts)) tokens := by
    rw [parBlocks_bare, syms_paraBlocks]
  have h1 := parNodes_length l (measureOf (defaultOptions opts) text) L.length
    (parBlocks (splitterOf env dict (defaultOptions opts)) (tokens.map bare))
  have h2 := weight_para (lossless (env := env) (dict := dict) hs) tokens
  rw [hsy] at h1
  simp only [nds, List.length_map]
  omega

end

end Verif.Proofs.LB
