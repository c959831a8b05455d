import Verif.Model.Linebreak

/-! # One step of the search for break points -/

namespace Verif.Proofs.LB
open Verif.Go Verif.Model Verif.Model.LB

variable {F : Type} [Arith F]

/-- What a step depends on. -/
structure Ctx (F : Type) where
  l : Options F
  nodes : List (Node F)
  ideal : F
  sum : Sums F
  index : Nat
  node : Node F

namespace Ctx

def ratio (x : Ctx F) (a : BreakPoint F) : F := adjustmentRatio a.totals x.node x.sum x.ideal

/-- The break is feasible from an active break point. -/
def feas (x : Ctx F) (a : BreakPoint F) : Bool :=
  Arith.le (Arith.ofInt (-1)) (x.ratio a) && Arith.le (x.ratio a) x.l.tolerance

def cls (x : Ctx F) (a : BreakPoint F) : Class := newFitnessClass (x.ratio a)

/-- The active break point stays. -/
def keep (x : Ctx F) (a : BreakPoint F) : Bool :=
  !(Arith.lt (x.ratio a) (Arith.ofInt (-1)) || x.node.isForcedBreak)

/-- The demerits; the break point is at a node. -/
def dem (x : Ctx F) (a : BreakPoint F) : F :=
  match demeritsAndClass x.l x.nodes a x.node (x.ratio a) with
  | .ok d => d.1
  | .error _ => zero

/-- The totals at the node. -/
def tot (x : Ctx F) : Sums F := sumFromNode x.nodes x.sum x.index

def step (x : Ctx F) (s : Candidates F × F) (a : BreakPoint F) : Candidates F × F :=
  if x.feas a then
    (if Arith.lt (x.dem a) (s.1 (x.cls a)).totalDemerits then s.1.set (x.cls a) a else s.1, minf s.2 (x.dem a))
  else s

end Ctx

theorem demeritsAndClass_eq (x : Ctx F) (a : BreakPoint F) (h : a.position < x.nodes.length) :
    demeritsAndClass x.l x.nodes a x.node (x.ratio a) = .ok (x.dem a, x.cls a) := by
  have hi : index x.nodes (a.position : Int) = .ok x.nodes[a.position] := by
    unfold index
    rw [if_neg (by omega)]
    simp [h]
  have : ∃ d, demeritsAndClass x.l x.nodes a x.node (x.ratio a) = .ok (d, x.cls a) := by
    unfold demeritsAndClass
    simp only [hi, ok_bind, pure_eq_ok]
    exact ⟨_, rfl⟩
  obtain ⟨d, hd⟩ := this
  unfold Ctx.dem
  rw [hd]

theorem mainLoopOn_eq (rt : Runtime) (x : Ctx F) (act : List (BreakPoint F)) (seen : List (BreakPoint F))
    (c : Candidates F) (low : F) (hp : ∀ a ∈ act, a.position < x.nodes.length) (hne : act ≠ []) :
    mainLoopOn rt x.l x.nodes x.ideal x.sum x.index x.node act seen c low =
      .ok (seen ++ act.filter x.keep ++
        insertNew rt x.l x.nodes x.sum x.index 0 (act.foldl x.step (c, low)).2 (act.foldl x.step (c, low)).1) := by
  induction act generalizing seen c low with
  | nil => exact absurd rfl hne
  | cons a rest ih =>
    have ha := demeritsAndClass_eq x a (hp a (by simp))
    have hseen : (if (Arith.lt (x.ratio a) (Arith.ofInt (-1)) || x.node.isForcedBreak) = true then seen
        else seen ++ [a]) = seen ++ [a].filter x.keep := by
      have : x.keep a = !(Arith.lt (x.ratio a) (Arith.ofInt (-1)) || x.node.isForcedBreak) := rfl
      cases h : (Arith.lt (x.ratio a) (Arith.ofInt (-1)) || x.node.isForcedBreak) <;>
        simp [this, h]
    have hstep : mainLoopOn rt x.l x.nodes x.ideal x.sum x.index x.node (a :: rest) seen c low =
        if rest = [] ∨ a.line ≥ a.line + 1 then
          mainLoopOn rt x.l x.nodes x.ideal x.sum x.index x.node rest
            (seen ++ [a].filter x.keep ++ insertNew rt x.l x.nodes x.sum x.index rest.length
              (x.step (c, low) a).2 (x.step (c, low) a).1) defaultCandidates (x.step (c, low) a).2
        else mainLoopOn rt x.l x.nodes x.ideal x.sum x.index x.node rest (seen ++ [a].filter x.keep)
          (x.step (c, low) a).1 (x.step (c, low) a).2 := by
      rw [mainLoopOn]
      simp only [show adjustmentRatio a.totals x.node x.sum x.ideal = x.ratio a from rfl]
      rw [hseen, ha]
      unfold Ctx.step Ctx.feas
      by_cases hf : (Arith.le (Arith.ofInt (-1)) (x.ratio a) && Arith.le (x.ratio a) x.l.tolerance) = true
      · rw [if_pos hf, if_pos hf]; rfl
      · rw [if_neg hf, if_neg hf]; rfl
    rw [hstep]
    cases hr : rest with
    | nil =>
      rw [if_pos (Or.inl rfl)]
      simp only [mainLoopOn, List.foldl_cons, List.foldl_nil, List.length_nil, List.append_assoc]
    | cons b rest' =>
      rw [if_neg (by rintro (h | h); cases h; omega)]
      rw [← hr, ih _ _ _ (fun y hy => hp y (by simp [hy])) (by simp [hr])]
      cases hk : x.keep a <;> simp [hk]

/-- The candidates come from the active break points. -/
theorem foldl_cands (x : Ctx F) (act : List (BreakPoint F)) (s : Candidates F × F) (c : Class) :
    (act.foldl x.step s).1 c = s.1 c ∨
      ∃ a ∈ act, (act.foldl x.step s).1 c = a ∧ x.feas a = true ∧ x.cls a = c := by
  induction act generalizing s with
  | nil => left; rfl
  | cons a rest ih =>
    rw [List.foldl_cons]
    rcases ih (x.step s a) with h | ⟨b, h1, h2⟩
    · rw [h]
      unfold Ctx.step
      split
      · rename_i hf
        split
        · unfold Candidates.set
          simp only
          split
          · rename_i hc
            exact Or.inr ⟨a, by simp, rfl, hf, hc.symm⟩
          · left; rfl
        · left; rfl
      · left; rfl
    · exact Or.inr ⟨b, by simp [h1], h2⟩

theorem insertLoop_mem (l : Options F) (index : Nat) (low : F) (c : Candidates F) (sum : Sums F)
    (before : Bool) (order : List Class) (b : BreakPoint F)
    (h : b ∈ insertLoop l index low c sum before order) :
    ∃ k, b = newBreak index k sum (c k) ∧ Arith.le Arith.maxFloat (c k).totalDemerits = false := by
  induction order with
  | nil => simp [insertLoop] at h
  | cons k rest ih =>
    unfold insertLoop at h
    simp only at h
    split at h
    · exact ih h
    · rename_i hc
      simp only [Bool.or_eq_true, not_or, Bool.not_eq_true] at hc
      split at h
      · simp at h; exact ⟨k, h, hc.1⟩
      · simp only [List.mem_cons] at h
        rcases h with h | h
        · exact ⟨k, h, hc.1⟩
        · exact ih h

variable [Laws F]

/-- **What a step does**, for any options: the active break points that stay, then new ones that follow
an active one from which the break is feasible. -/
theorem mainLoop_mem (rt : Runtime) (x : Ctx F) (act : List (BreakPoint F))
    (hp : ∀ a ∈ act, a.position < x.nodes.length) :
    ∃ new, mainLoop rt x.l x.nodes x.ideal x.sum x.index x.node act = .ok (act.filter x.keep ++ new) ∧
      ∀ b ∈ new, ∃ a ∈ act, x.feas a = true ∧ b = newBreak x.index (x.cls a) x.tot a := by
  by_cases hne : act = []
  · subst hne
    exact ⟨[], rfl, by simp⟩
  · refine ⟨_, by unfold mainLoop; rw [mainLoopOn_eq rt x act [] _ _ hp hne, List.nil_append], ?_⟩
    intro b hb
    unfold insertNew at hb
    split at hb
    · obtain ⟨k, h1, h2⟩ := insertLoop_mem _ _ _ _ _ _ _ _ hb
      rcases foldl_cands x act (defaultCandidates, Arith.maxFloat) k with h | ⟨a, h3, h4, h5, h6⟩
      · rw [h] at h2
        simp only [defaultCandidates, Laws.le_max] at h2
        cases h2
      · refine ⟨a, h3, h5, ?_⟩
        rw [h1, h4, h6]
        rfl
    · simp at hb

/-! ## Exact result -/

/-- The demerits of the break from an active break point are neither negative nor out of range. -/
def Ctx.Tame (x : Ctx F) (a : BreakPoint F) : Prop :=
  Arith.lt (x.dem a) Arith.maxFloat = true ∧ Arith.lt (x.dem a) zero = false ∧
    Arith.lt (Arith.add (x.dem a) x.l.demeritsFitness) zero = false

/-- The first active break point from which the break is feasible, with a class. -/
def Ctx.pick (x : Ctx F) (act : List (BreakPoint F)) (c : Class) : Option (BreakPoint F) :=
  act.find? (fun a => x.feas a && decide (x.cls a = c))

theorem maxFloat_ne_zero : (Arith.maxFloat : F) ≠ zero := by
  intro h
  have h1 : Arith.lt (zero : F) Arith.maxFloat = true := Laws.zero_lt_max
  rw [h] at h1
  have h2 := Laws.lt_asymm _ _ h1
  rw [h1] at h2
  cases h2

open Classical in
theorem foldl_pick (x : Ctx F) (act : List (BreakPoint F)) (s : Candidates F × F)
    (hz : ∀ a ∈ act, a.totalDemerits = zero) (ht : ∀ a ∈ act, x.feas a = true → x.Tame a)
    (hs : ∀ c, (s.1 c).totalDemerits = zero ∨ (s.1 c).totalDemerits = Arith.maxFloat) (c : Class) :
    (act.foldl x.step s).1 c =
      if (s.1 c).totalDemerits = zero then s.1 c else (x.pick act c).getD (s.1 c) := by
  have hmz := maxFloat_ne_zero (F := F)
  classical
  induction act generalizing s with
  | nil => simp [Ctx.pick]
  | cons a rest ih =>
    rw [List.foldl_cons]
    have hz' : ∀ a ∈ rest, a.totalDemerits = zero := fun b hb => hz b (by simp [hb])
    have ht' : ∀ a ∈ rest, x.feas a = true → x.Tame a := fun b hb => ht b (by simp [hb])
    by_cases hf : x.feas a = true
    · obtain ⟨t1, t2, _⟩ := ht a (by simp) hf
      have hs' : ∀ c, (((x.step s a).1 c).totalDemerits = zero ∨ ((x.step s a).1 c).totalDemerits = Arith.maxFloat) := by
        intro c
        unfold Ctx.step
        rw [if_pos hf]
        simp only
        split
        · unfold Candidates.set
          split
          · exact Or.inl (hz a (by simp))
          · exact hs c
        · exact hs c
      rw [ih _ hz' ht' hs']
      have hpick : x.pick (a :: rest) c = if x.cls a = c then some a else x.pick rest c := by
        unfold Ctx.pick
        by_cases hc : x.cls a = c <;> simp [hf, hc]
      rw [hpick]
      have hst : (x.step s a).1 c =
          if x.cls a = c ∧ (s.1 c).totalDemerits ≠ zero then a else s.1 c := by
        unfold Ctx.step
        rw [if_pos hf]
        simp only
        by_cases hc : x.cls a = c
        · subst hc
          rcases hs (x.cls a) with h | h
          · rw [h, t2]; simp
          · rw [h, t1]
            simp [Candidates.set, hmz]
        · split
          · simp [Candidates.set, hc, Ne.symm hc]
          · simp [hc]
      rw [hst]
      by_cases hc : x.cls a = c
      · subst hc
        rcases hs (x.cls a) with h | h
        · simp [h]
        · have hne : (s.1 (x.cls a)).totalDemerits ≠ zero := by rw [h]; exact hmz
          simp [hne, hz a (by simp)]
      · simp [hc]
    · have : x.step s a = s := by unfold Ctx.step; rw [if_neg hf]
      rw [this, ih s hz' ht' hs]
      have hpick : x.pick (a :: rest) c = x.pick rest c := by
        unfold Ctx.pick
        simp [hf]
      rw [hpick]

omit [Laws F] in
theorem foldl_low (x : Ctx F) (act : List (BreakPoint F)) (s : Candidates F × F)
    (ht : ∀ a ∈ act, x.feas a = true → x.Tame a) :
    (act.foldl x.step s).2 = s.2 ∨ ∃ a ∈ act, x.feas a = true ∧ (act.foldl x.step s).2 = x.dem a := by
  induction act generalizing s with
  | nil => left; rfl
  | cons a rest ih =>
    rw [List.foldl_cons]
    rcases ih (x.step s a) (fun b hb => ht b (by simp [hb])) with h | ⟨b, h1, h2, h3⟩
    · rw [h]
      unfold Ctx.step
      split
      · rename_i hf
        unfold minf
        simp only
        split
        · left; rfl
        · exact Or.inr ⟨a, by simp, hf, rfl⟩
      · left; rfl
    · exact Or.inr ⟨b, by simp [h1], h2, h3⟩

theorem foldl_low_lt (x : Ctx F) (act : List (BreakPoint F)) (s : Candidates F × F)
    (ht : ∀ a ∈ act, x.feas a = true → x.Tame a) (h : (∃ a ∈ act, x.feas a = true) ∨ Arith.lt s.2 Arith.maxFloat = true)
    (hs : s.2 = Arith.maxFloat ∨ Arith.lt s.2 Arith.maxFloat = true) :
    Arith.lt (act.foldl x.step s).2 Arith.maxFloat = true := by
  induction act generalizing s with
  | nil =>
    rcases h with ⟨a, ha, _⟩ | h
    · simp at ha
    · exact h
  | cons a rest ih =>
    rw [List.foldl_cons]
    by_cases hf : x.feas a = true
    · obtain ⟨t1, _, _⟩ := ht a (by simp) hf
      have : Arith.lt (x.step s a).2 Arith.maxFloat = true := by
        unfold Ctx.step
        rw [if_pos hf]
        unfold minf
        simp only
        split
        · rename_i hl
          rcases hs with hs | hs
          · rw [hs] at hl
            rw [Laws.lt_asymm _ _ hl] at t1; cases t1
          · exact hs
        · exact t1
      exact ih _ (fun b hb => ht b (by simp [hb])) (Or.inr this) (Or.inr this)
    · have e : x.step s a = s := by unfold Ctx.step; rw [if_neg hf]
      rw [e]
      refine ih s (fun b hb => ht b (by simp [hb])) ?_ hs
      rcases h with ⟨b, hb, hbf⟩ | h
      · simp only [List.mem_cons] at hb
        rcases hb with rfl | hb
        · exact absurd hbf hf
        · exact Or.inl ⟨b, hb, hbf⟩
      · exact Or.inr h

theorem insertLoop_eq (l : Options F) (index : Nat) (low : F) (c : Candidates F) (sum : Sums F)
    (g : Class → Option (BreakPoint F)) (hg : ∀ k, c k = (g k).getD (defaultCandidates k))
    (hz : ∀ k a, g k = some a → a.totalDemerits = zero)
    (hl : Arith.lt (Arith.add low l.demeritsFitness) zero = false) (order : List Class) :
    insertLoop l index low c sum false order =
      order.filterMap (fun k => (g k).map (newBreak index k sum)) := by
  induction order with
  | nil => rfl
  | cons k rest ih =>
    unfold insertLoop
    simp only [hg k]
    cases h : g k with
    | none =>
      simp only [Option.getD_none, defaultCandidates, Laws.le_max, Bool.true_or, if_true]
      rw [ih]
      simp [h]
    | some a =>
      have hza := hz k a h
      have h1 : Arith.le (Arith.maxFloat : F) zero = false := Laws.le_of_lt _ _ Laws.zero_lt_max
      simp only [Option.getD_some, hza, h1, hl, Bool.or_self, Bool.false_eq_true, if_false]
      rw [ih]
      simp [h]

/-- **What a step does** when demerits are tame: for each class, the first active break point from which
the break is feasible is followed by a new break point. -/
theorem mainLoop_tame (rt : Runtime) (x : Ctx F) (act : List (BreakPoint F))
    (hp : ∀ a ∈ act, a.position < x.nodes.length) (hz : ∀ a ∈ act, a.totalDemerits = zero)
    (ht : ∀ a ∈ act, x.feas a = true → x.Tame a) :
    mainLoop rt x.l x.nodes x.ideal x.sum x.index x.node act =
      .ok (act.filter x.keep ++
        (if act = [] then [] else rt.order x.index 0).filterMap
          (fun c => (x.pick act c).map (newBreak x.index c x.tot))) := by
  by_cases hne : act = []
  · subst hne; rfl
  · unfold mainLoop
    rw [mainLoopOn_eq rt x act [] _ _ hp hne, List.nil_append, if_neg hne]
    congr 2
    have hmz := maxFloat_ne_zero (F := F)
    have hpick : ∀ c, (act.foldl x.step (defaultCandidates, Arith.maxFloat)).1 c =
        (x.pick act c).getD (defaultCandidates c) := by
      intro c
      have := foldl_pick x act (defaultCandidates, Arith.maxFloat) hz ht (fun c => Or.inr rfl) c
      rw [this, if_neg]
      exact hmz
    unfold insertNew
    by_cases hf : ∃ a ∈ act, x.feas a = true
    · rw [if_pos (foldl_low_lt x act _ ht (Or.inl hf) (Or.inl rfl))]
      refine insertLoop_eq _ _ _ _ _ (x.pick act) hpick ?_ ?_ _
      · intro k a hk
        exact hz a (List.mem_of_find?_eq_some hk)
      · rcases foldl_low x act (defaultCandidates, Arith.maxFloat) ht with h | ⟨a, h1, h2, h3⟩
        · have := foldl_low_lt x act (defaultCandidates, Arith.maxFloat) ht (Or.inl hf) (Or.inl rfl)
          rw [h] at this
          simp only at this
          rw [Laws.lt_asymm _ _ this] at this; cases this
        · rw [h3]; exact (ht a h1 h2).2.2
    · have hno : ∀ a ∈ act, x.feas a = false := by
        intro a ha
        cases h : x.feas a with
        | false => rfl
        | true => exact absurd ⟨a, ha, h⟩ hf
      have hnone : ∀ c, x.pick act c = none := by
        intro c
        unfold Ctx.pick
        rw [List.find?_eq_none]
        intro a ha
        simp [hno a ha]
      have hlow : (act.foldl x.step (defaultCandidates, Arith.maxFloat)).2 = Arith.maxFloat := by
        rcases foldl_low x act (defaultCandidates, Arith.maxFloat) ht with h | ⟨a, h1, h2, _⟩
        · exact h
        · rw [hno a h1] at h2; cases h2
      rw [hlow, if_neg]
      · simp [hnone]
      · intro h
        have h2 := Laws.lt_asymm _ _ h
        rw [h] at h2; cases h2

end Verif.Proofs.LB
