import Verif.Spec.Steps
import Verif.Model.Steps

/-! # Steps taken by the search for break points -/

namespace Verif.Proofs.LB
open Verif.Go Verif.Model.LB Verif.Spec.LB

variable {F : Type} [Arith F]

/-! ## The results are those of the model -/

theorem sumFromLoopC_res : ∀ (ns : List (Node F)) (first : Bool) (sum : Sums F),
    (sumFromLoopC first ns sum).2 = sumFromLoop first ns sum
  | [], _, _ => rfl
  | node :: rest, first, sum => by
    unfold sumFromLoopC sumFromLoop
    by_cases h : node.kind = .glue
    · simp only [if_pos h]; exact sumFromLoopC_res rest _ _
    · simp only [if_neg h]
      by_cases h' : node.kind = .box ∨ (node.isForcedBreak ∧ ¬ first)
      · simp only [if_pos h']
      · simp only [if_neg h']; exact sumFromLoopC_res rest _ _

theorem insertLoopC_res (l : Options F) (index : Nat) (low : F) (c : Candidates F) (sum : Sums F) (before : Bool) :
    ∀ cs : List Class, (insertLoopC l index low c sum before cs).2 = insertLoop l index low c sum before cs
  | [] => rfl
  | class_ :: rest => by
    have ih := insertLoopC_res l index low c sum before rest
    unfold insertLoopC insertLoop
    simp only []
    split
    · exact ih
    · split
      · rfl
      · simp only [ih]

theorem insertNewC_res (rt : Runtime) (l : Options F) (nodes : List (Node F)) (sum : Sums F) (index n : Nat)
    (low : F) (c : Candidates F) : (insertNewC rt l nodes sum index n low c).2 = insertNew rt l nodes sum index n low c := by
  unfold insertNewC insertNew sumFromNode
  split
  · simp only [insertLoopC_res, sumFromLoopC_res]
  · rfl

theorem mainLoopOnC_res (rt : Runtime) (l : Options F) (nodes : List (Node F)) (ideal : F) (sum : Sums F)
    (index : Nat) (node : Node F) : ∀ (act seen : List (BreakPoint F)) (c : Candidates F) (low : F),
    (mainLoopOnC rt l nodes ideal sum index node act seen c low).res =
      mainLoopOn rt l nodes ideal sum index node act seen c low
  | [], _, _, _ => rfl
  | active :: rest, seen, c, low => by
    have ih := mainLoopOnC_res rt l nodes ideal sum index node rest
    unfold mainLoopOnC mainLoopOn Counted.round Counted.andThen Counted.of
    simp only []
    by_cases hf : (Arith.le (Arith.ofInt (-1)) (adjustmentRatio active.totals node sum ideal) &&
      Arith.le (adjustmentRatio active.totals node sum ideal) l.tolerance) = true
    · simp only [if_pos hf]
      cases demeritsAndClass l nodes active node (adjustmentRatio active.totals node sum ideal) with
      | error e => rfl
      | ok d =>
        simp only [ok_bind, pure_eq_ok]
        split
        · simp only [insertNewC_res]; exact ih _ _ _
        · exact ih _ _ _
    · simp only [if_neg hf, pure_eq_ok, ok_bind]
      split
      · simp only [insertNewC_res]; exact ih _ _ _
      · exact ih _ _ _

theorem findStartNodeC_res : ∀ (ns : List (Node F)) (start : Nat), (findStartNodeC ns start).2 = findStartNode ns start
  | [], _ => rfl
  | node :: rest, start => by
    unfold findStartNodeC findStartNode
    cases node.kind with
    | box => rfl
    | glue => exact findStartNodeC_res rest _
    | penalty =>
      simp only []
      split
      · rfl
      · exact findStartNodeC_res rest _

theorem breakLoopC_res (rt : Runtime) (l : Options F) (nodes : List (Node F)) (ideal : F) :
    ∀ (ns : List (Node F)) (prev : Option (Node F)) (index : Nat) (sum : Sums F) (act : List (BreakPoint F)),
    (breakLoopC rt l nodes ideal prev ns index sum act).res = breakLoop rt l nodes ideal prev ns index sum act
  | [], _, _, _, _ => rfl
  | node :: rest, prev, index, sum, act => by
    have ih := breakLoopC_res rt l nodes ideal rest
    unfold breakLoopC breakLoop Counted.round
    cases node.kind with
    | box => exact ih _ _ _ _
    | glue =>
      simp only []
      split
      · unfold Counted.andThen mainLoopC mainLoop
        rw [mainLoopOnC_res]
        cases mainLoopOn rt l nodes ideal sum index node act [] defaultCandidates Arith.maxFloat with
        | error e => rfl
        | ok a => exact ih _ _ _ _
      · exact ih _ _ _ _
    | penalty =>
      simp only []
      split
      · unfold Counted.andThen mainLoopC mainLoop
        rw [mainLoopOnC_res]
        cases mainLoopOn rt l nodes ideal sum index node act [] defaultCandidates Arith.maxFloat with
        | error e => rfl
        | ok a => exact ih _ _ _ _
      · exact ih _ _ _ _

theorem findBestBreakC_res : ∀ (act : List (BreakPoint F)) (best : BreakPoint F),
    (findBestBreakC act best).2 = findBestBreak act best
  | [], _ => rfl
  | node :: rest, best => by
    unfold findBestBreakC findBestBreak
    simp only []
    split
    · exact findBestBreakC_res rest _
    · exact findBestBreakC_res rest _

theorem breakPointsC_res (rt : Runtime) (l : Options F) (nodes : List (Node F)) (ideal : F) :
    (breakPointsC rt l nodes ideal).res = breakPoints rt l nodes ideal := by
  unfold breakPointsC breakPoints Counted.andThen
  simp only [findStartNodeC_res, breakLoopC_res]
  cases breakLoop rt l nodes ideal (if findStartNode nodes 0 = 0 then none else nodes[findStartNode nodes 0 - 1]?)
    (nodes.drop (findStartNode nodes 0)) (findStartNode nodes 0) Sums.zero [rootPoint] with
  | error e => rfl
  | ok act =>
    simp only [ok_bind]
    split
    · simp only [findBestBreakC_res]; rfl
    · rfl

/-! ## Bounds -/

theorem sumFromLoopC_steps : ∀ (ns : List (Node F)) (first : Bool) (sum : Sums F),
    (sumFromLoopC first ns sum).1 ≤ ns.length
  | [], _, _ => by simp [sumFromLoopC]
  | node :: rest, first, sum => by
    unfold sumFromLoopC
    split
    · have := sumFromLoopC_steps rest false (sum.add node.sums); simp only [List.length_cons]; omega
    · split
      · simp
      · have := sumFromLoopC_steps rest false sum; simp only [List.length_cons]; omega

/-- At most one step and one break point for each class. -/
theorem insertLoopC_steps (l : Options F) (index : Nat) (low : F) (c : Candidates F) (sum : Sums F) (before : Bool) :
    ∀ cs : List Class, (insertLoopC l index low c sum before cs).1 ≤ cs.length ∧
      (insertLoopC l index low c sum before cs).2.length ≤ cs.length
  | [] => by simp [insertLoopC]
  | class_ :: rest => by
    obtain ⟨i1, i2⟩ := insertLoopC_steps l index low c sum before rest
    unfold insertLoopC
    simp only []
    split
    · simp only [List.length_cons]; omega
    · split
      · simp
      · simp only [List.length_cons]; omega

/-- The new break points come after a candidate. -/
theorem insertLoopC_chain {p : Nat} (l : Options F) (index : Nat) (low : F) (c : Candidates F) (sum : Sums F) (before : Bool)
    (hc : ∀ k, (c k).previous.length ≤ p) :
    ∀ cs : List Class, ∀ b ∈ (insertLoopC l index low c sum before cs).2, b.previous.length ≤ p + 1
  | [] => by simp [insertLoopC]
  | class_ :: rest => by
    have ih := insertLoopC_chain l index low c sum before hc rest
    have h : (newBreak index class_ sum (c class_)).previous.length ≤ p + 1 := by
      have := hc class_; simp [newBreak]; omega
    unfold insertLoopC
    simp only []
    split
    · exact ih
    · split
      · intro b hb; rw [List.mem_singleton.mp hb]; exact h
      · intro b hb
        rcases List.mem_cons.mp hb with rfl | hb
        · exact h
        · exact ih b hb

theorem order_length {rt : Runtime} (h : OneWalk rt) (i n : Nat) : (rt.order i n).length ≤ 4 := by
  have h1 : ∀ cs : List Class, cs.Nodup → cs.length ≤ [Class.zero, .one, .two, .three].length := by
    intro cs hcs
    refine List.Nodup.length_le_of_subset hcs ?_
    intro c _
    cases c <;> simp
  exact h1 _ (h i n)

theorem insertNewC_steps {rt : Runtime} (ho : OneWalk rt) (l : Options F) (nodes : List (Node F)) (sum : Sums F)
    (index n : Nat) (low : F) (c : Candidates F) :
    (insertNewC rt l nodes sum index n low c).1 ≤ nodes.length + 4 ∧
    (insertNewC rt l nodes sum index n low c).2.length ≤ 4 := by
  unfold insertNewC
  split
  · have h1 := sumFromLoopC_steps (nodes.drop index) true sum
    have h2 := insertLoopC_steps l index low c (sumFromLoopC true (nodes.drop index) sum).2 (decide (0 < n)) (rt.order index n)
    have h3 := order_length ho index n
    simp only [List.length_drop] at h1
    simp only []
    omega
  · simp

theorem insertNewC_chain {p : Nat} (rt : Runtime) (l : Options F) (nodes : List (Node F)) (sum : Sums F)
    (index n : Nat) (low : F) {c : Candidates F} (hc : ∀ k, (c k).previous.length ≤ p) :
    ∀ b ∈ (insertNewC rt l nodes sum index n low c).2, b.previous.length ≤ p + 1 := by
  unfold insertNewC
  split
  · exact insertLoopC_chain l index low c _ _ hc _
  · simp

/-- One round for each active break point, then the insertion of four of them at most. -/
theorem mainLoopOnC_steps {rt : Runtime} (ho : OneWalk rt) (l : Options F) (nodes : List (Node F)) (ideal : F)
    (sum : Sums F) (index : Nat) (node : Node F) {p : Nat} :
    ∀ (act seen : List (BreakPoint F)) (c : Candidates F) (low : F),
    (∀ b ∈ act, b.previous.length ≤ p) → (∀ b ∈ seen, b.previous.length ≤ p) → (∀ k, (c k).previous.length ≤ p) →
    act ≠ [] →
    (mainLoopOnC rt l nodes ideal sum index node act seen c low).steps ≤ act.length + nodes.length + 4 ∧
    ∀ act', (mainLoopOnC rt l nodes ideal sum index node act seen c low).res = .ok act' →
      act'.length ≤ seen.length + act.length + 4 ∧ ∀ b ∈ act', b.previous.length ≤ p + 1
  | [], _, _, _, _, _, _, hne => absurd rfl hne
  | active :: rest, seen, c, low, ha, hs, hc, _ => by
    have ih := mainLoopOnC_steps ho l nodes ideal sum index node (p := p) rest
    have key : ∀ (r : Candidates F × F), (∀ k, (r.1 k).previous.length ≤ p) → ∀ seen' : List (BreakPoint F),
        (∀ b ∈ seen', b.previous.length ≤ p) → seen'.length ≤ seen.length + 1 →
        ∀ x : Counted (List (BreakPoint F)), (x = if rest = [] ∨ active.line ≥ active.line + 1 then
            ⟨(insertNewC rt l nodes sum index rest.length r.2 r.1).1 +
              (mainLoopOnC rt l nodes ideal sum index node rest
                (seen' ++ (insertNewC rt l nodes sum index rest.length r.2 r.1).2) defaultCandidates r.2).steps,
              (mainLoopOnC rt l nodes ideal sum index node rest
                (seen' ++ (insertNewC rt l nodes sum index rest.length r.2 r.1).2) defaultCandidates r.2).res⟩
          else mainLoopOnC rt l nodes ideal sum index node rest seen' r.1 r.2) →
        0 + x.steps + 1 ≤ rest.length + 1 + nodes.length + 4 ∧
        ∀ act', x.res = .ok act' → act'.length ≤ seen.length + (rest.length + 1) + 4 ∧
          ∀ b ∈ act', b.previous.length ≤ p + 1 := by
      intro r hr seen' hs' hl x hx
      by_cases h : rest = []
      · subst h
        rw [if_pos (Or.inl rfl)] at hx
        subst hx
        have h1 := insertNewC_steps ho l nodes sum index (([] : List (BreakPoint F)).length) r.2 r.1
        have h2 := insertNewC_chain rt l nodes sum index (([] : List (BreakPoint F)).length) r.2 hr
        simp only [mainLoopOnC, Counted.of, List.length_nil, Except.ok.injEq] at h1 h2 ⊢
        refine ⟨by omega, fun act' e => ?_⟩
        subst e
        refine ⟨by rw [List.length_append]; omega, fun b hb => ?_⟩
        rcases List.mem_append.mp hb with hb | hb
        · have := hs' b hb; omega
        · exact h2 b hb
      · rw [if_neg (by rintro (h' | h'); exacts [h h', by omega])] at hx
        subst hx
        obtain ⟨i1, i2⟩ := ih seen' r.1 r.2 (fun b hb => ha b (by simp [hb])) hs' hr h
        refine ⟨by omega, fun act' e => ?_⟩
        obtain ⟨i3, i4⟩ := i2 act' e
        exact ⟨by omega, i4⟩
    have hseen : ∀ b ∈ (if (Arith.lt (adjustmentRatio active.totals node sum ideal) (Arith.ofInt (-1)) ||
        node.isForcedBreak) = true then seen else seen ++ [active]), b.previous.length ≤ p := by
      intro b hb
      split at hb
      · exact hs b hb
      · rcases List.mem_append.mp hb with hb | hb
        · exact hs b hb
        · rw [List.mem_singleton.mp hb]; exact ha active (by simp)
    have hlen : (if (Arith.lt (adjustmentRatio active.totals node sum ideal) (Arith.ofInt (-1)) ||
        node.isForcedBreak) = true then seen else seen ++ [active]).length ≤ seen.length + 1 := by
      split
      · omega
      · simp
    unfold mainLoopOnC Counted.round Counted.andThen Counted.of
    simp only [List.length_cons]
    by_cases hf : (Arith.le (Arith.ofInt (-1)) (adjustmentRatio active.totals node sum ideal) &&
      Arith.le (adjustmentRatio active.totals node sum ideal) l.tolerance) = true
    · simp only [if_pos hf]
      cases demeritsAndClass l nodes active node (adjustmentRatio active.totals node sum ideal) with
      | error e => exact ⟨by simp only [error_bind]; omega, fun act' e => by cases e⟩
      | ok d =>
        simp only [ok_bind, pure_eq_ok]
        obtain ⟨k1, k2⟩ := key (if Arith.lt d.1 (c d.2).totalDemerits = true then c.set d.2 active else c, minf low d.1)
          (by
            intro k
            simp only []
            split
            · unfold Candidates.set
              split
              · exact ha active (by simp)
              · exact hc k
            · exact hc k) _ hseen hlen _ rfl
        exact ⟨k1, k2⟩
    · simp only [if_neg hf, pure_eq_ok]
      exact key (c, low) hc _ hseen hlen _ rfl

theorem mainLoopC_steps {rt : Runtime} (ho : OneWalk rt) (l : Options F) (nodes : List (Node F)) (ideal : F)
    (sum : Sums F) (index : Nat) (node : Node F) {p : Nat} (act : List (BreakPoint F))
    (ha : ∀ b ∈ act, b.previous.length ≤ p) :
    (mainLoopC rt l nodes ideal sum index node act).steps ≤ act.length + nodes.length + 4 ∧
    ∀ act', (mainLoopC rt l nodes ideal sum index node act).res = .ok act' →
      act'.length ≤ act.length + 4 ∧ ∀ b ∈ act', b.previous.length ≤ p + 1 := by
  unfold mainLoopC
  by_cases h : act = []
  · subst h
    refine ⟨by simp [mainLoopOnC, Counted.of], fun act' e => ?_⟩
    simp only [mainLoopOnC, Counted.of, Except.ok.injEq] at e
    subst e
    simp
  · have := mainLoopOnC_steps ho l nodes ideal sum index node (p := p) act [] defaultCandidates Arith.maxFloat ha
      (by simp) (by intro k; simp [defaultCandidates]) h
    simpa using this

/-- What the loop over the nodes does, from any active break points on. -/
theorem breakLoopC_steps {rt : Runtime} (ho : OneWalk rt) (l : Options F) (nodes : List (Node F)) (ideal : F) :
    ∀ (ns : List (Node F)) (prev : Option (Node F)) (index : Nat) (sum : Sums F) (act : List (BreakPoint F)) (p : Nat),
    (∀ b ∈ act, b.previous.length ≤ p) →
    (breakLoopC rt l nodes ideal prev ns index sum act).steps ≤
      ns.length * (act.length + nodes.length + 5) + 2 * (ns.length * ns.length) ∧
    ∀ act', (breakLoopC rt l nodes ideal prev ns index sum act).res = .ok act' →
      act'.length ≤ act.length + 4 * ns.length ∧ ∀ b ∈ act', b.previous.length ≤ p + ns.length
  | [], _, _, _, act, p, ha => by
    simp only [breakLoopC, Counted.of, Except.ok.injEq]
    exact ⟨by simp, fun act' e => by subst e; simpa using ha⟩
  | node :: rest, prev, index, sum, act, p, ha => by
    have ih := breakLoopC_steps ho l nodes ideal rest
    have ar : ∀ a a' : Nat, a' ≤ a + 4 → rest.length * (a' + nodes.length + 5) + 2 * (rest.length * rest.length) +
        (a + nodes.length + 4) + 1 ≤ (rest.length + 1) * (a + nodes.length + 5) +
          2 * ((rest.length + 1) * (rest.length + 1)) := by
      intro a a' h
      have h1 : rest.length * (a' + nodes.length + 5) ≤ rest.length * (a + nodes.length + 5 + 4) :=
        Nat.mul_le_mul_left _ (by omega)
      simp only [Nat.mul_add, Nat.add_mul, Nat.mul_one, Nat.one_mul] at h1 ⊢
      omega
    have skip : ∀ x : Counted (List (BreakPoint F)), (∃ prev sum, x = breakLoopC rt l nodes ideal prev rest (index + 1) sum act) →
        x.steps + 1 ≤ (rest.length + 1) * (act.length + nodes.length + 5) + 2 * ((rest.length + 1) * (rest.length + 1)) ∧
        ∀ act', x.res = .ok act' → act'.length ≤ act.length + 4 * (rest.length + 1) ∧
          ∀ b ∈ act', b.previous.length ≤ p + (rest.length + 1) := by
      rintro x ⟨prev', sum', rfl⟩
      obtain ⟨i1, i2⟩ := ih prev' (index + 1) sum' act p ha
      have := ar act.length act.length (by omega)
      refine ⟨by omega, fun act' e => ?_⟩
      obtain ⟨i3, i4⟩ := i2 act' e
      exact ⟨by omega, fun b hb => by have := i4 b hb; omega⟩
    have explore : ∀ x : Counted (List (BreakPoint F)), (∃ prev sum', x = (mainLoopC rt l nodes ideal sum index node act).andThen
          fun active => breakLoopC rt l nodes ideal prev rest (index + 1) sum' active) →
        x.steps + 1 ≤ (rest.length + 1) * (act.length + nodes.length + 5) + 2 * ((rest.length + 1) * (rest.length + 1)) ∧
        ∀ act', x.res = .ok act' → act'.length ≤ act.length + 4 * (rest.length + 1) ∧
          ∀ b ∈ act', b.previous.length ≤ p + (rest.length + 1) := by
      rintro x ⟨prev', sum', rfl⟩
      obtain ⟨m1, m2⟩ := mainLoopC_steps ho l nodes ideal sum index node act ha
      unfold Counted.andThen
      cases hm : (mainLoopC rt l nodes ideal sum index node act).res with
      | error e =>
        have := ar act.length act.length (by omega)
        exact ⟨by simp only []; omega, fun act' e => by cases e⟩
      | ok act1 =>
        obtain ⟨m3, m4⟩ := m2 act1 hm
        obtain ⟨i1, i2⟩ := ih prev' (index + 1) sum' act1 (p + 1) m4
        have := ar act.length act1.length m3
        simp only []
        refine ⟨by omega, fun act' e => ?_⟩
        obtain ⟨i3, i4⟩ := i2 act' e
        exact ⟨by omega, fun b hb => by have := i4 b hb; omega⟩
    unfold breakLoopC Counted.round
    simp only [List.length_cons]
    cases node.kind with
    | box => exact skip _ ⟨_, _, rfl⟩
    | glue =>
      simp only []
      split
      · exact explore _ ⟨_, _, rfl⟩
      · refine skip _ ⟨some node, sum.add node.sums, ?_⟩
        simp [Counted.andThen, Counted.of]
    | penalty =>
      simp only []
      split
      · exact explore _ ⟨_, _, rfl⟩
      · refine skip _ ⟨some node, sum, ?_⟩
        simp [Counted.andThen, Counted.of]

theorem findStartNodeC_steps : ∀ (ns : List (Node F)) (start : Nat), (findStartNodeC ns start).1 ≤ ns.length
  | [], _ => by simp [findStartNodeC]
  | node :: rest, start => by
    have ih := findStartNodeC_steps rest
    unfold findStartNodeC
    simp only [List.length_cons]
    cases node.kind with
    | box => simp
    | glue => have := ih (start + 1); simp only []; omega
    | penalty =>
      simp only []
      split
      · simp
      · have := ih start; simp only []; omega

theorem findBestBreakC_steps : ∀ (act : List (BreakPoint F)) (best : BreakPoint F),
    (findBestBreakC act best).1 = act.length ∧ ((findBestBreakC act best).2 = best ∨ (findBestBreakC act best).2 ∈ act)
  | [], _ => by simp [findBestBreakC]
  | node :: rest, best => by
    unfold findBestBreakC
    simp only [List.length_cons, List.mem_cons]
    split
    · obtain ⟨h1, h2⟩ := findBestBreakC_steps rest node
      exact ⟨by omega, Or.inr h2⟩
    · obtain ⟨h1, h2⟩ := findBestBreakC_steps rest best
      exact ⟨by omega, h2.imp_right Or.inr⟩

theorem breakPointsC_steps {rt : Runtime} (ho : OneWalk rt) (l : Options F) (nodes : List (Node F)) (ideal : F) :
    (breakPointsC rt l nodes ideal).steps ≤ 3 * (nodes.length * nodes.length) + 12 * nodes.length + 2 := by
  have h1 := findStartNodeC_steps nodes 0
  unfold breakPointsC
  simp only []
  generalize (findStartNodeC nodes 0).2 = start
  obtain ⟨b1, b2⟩ := breakLoopC_steps ho l nodes ideal (nodes.drop start) (if start = 0 then none else nodes[start - 1]?)
    start Sums.zero [rootPoint] 0 (by simp [rootPoint])
  have hr : (nodes.drop start).length ≤ nodes.length := by simp
  generalize hn : (nodes.drop start).length = r at b1 b2 hr
  have e1 : r * ([rootPoint (F := F)].length + nodes.length + 5) ≤ nodes.length * nodes.length + 6 * nodes.length := by
    have := Nat.mul_le_mul_right ([rootPoint (F := F)].length + nodes.length + 5) hr
    simp only [List.length_singleton, Nat.mul_add, Nat.mul_one] at this ⊢
    omega
  have e2 : r * r ≤ nodes.length * nodes.length := Nat.mul_le_mul hr hr
  replace b1 := Nat.le_trans b1 (Nat.add_le_add e1 (Nat.mul_le_mul_left 2 e2))
  unfold Counted.andThen
  cases hb : (breakLoopC rt l nodes ideal (if start = 0 then none else nodes[start - 1]?) (nodes.drop start) start
      Sums.zero [rootPoint]).res with
  | error e => simp only []; omega
  | ok act =>
    obtain ⟨b3, b4⟩ := b2 act hb
    obtain ⟨f1, f2⟩ := findBestBreakC_steps act noBreak
    have f3 : (findBestBreakC act noBreak).2.previous.length ≤ nodes.length := by
      rcases f2 with f2 | f2
      · rw [f2]; simp [noBreak]
      · have := b4 _ f2; omega
    simp only [List.length_singleton] at b3
    by_cases h0 : act.length > 0
    · simp only [if_pos h0]; omega
    · simp only [if_neg h0, Counted.of]; omega

end Verif.Proofs.LB
