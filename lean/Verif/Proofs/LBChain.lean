import Verif.Proofs.LBMain

/-! # Chains of break points -/

namespace Verif.Proofs.LB
open Verif.Go Verif.Model Verif.Model.LB

variable {F : Type} [Arith F]

/-- A node is considered for a break: a glue after a box, or a penalty that is not infinite. -/
def LegalAt (prev : Option (Node F)) (x : Node F) : Prop :=
  (x.kind = .glue ∧ prev.map Node.kind = some .box) ∨
    (x.kind = .penalty ∧ Arith.eq x.penalty infinity = false)

/-- The sums after one node. -/
def sumNode (sum : Sums F) (x : Node F) : Sums F :=
  match x.kind with
  | .box => { sum with width := Arith.add sum.width x.sums.width }
  | .glue => sum.add x.sums
  | .penalty => sum

/-- The sums when the node at `i` is reached. -/
def sumAt (nodes : List (Node F)) (i : Nat) : Sums F :=
  ((nodes.take i).drop (findStartNode nodes 0)).foldl sumNode Sums.zero

/-- The step at a node. -/
def ctxAt (l : Options F) (nodes : List (Node F)) (ideal : F) (i : Nat) (x : Node F) : Ctx F :=
  ⟨l, nodes, ideal, sumAt nodes i, i, x⟩

/-- The break point `q` may follow `p`. -/
def Step (l : Options F) (nodes : List (Node F)) (ideal : F) (p q : Point F) : Prop :=
  ∃ u x v, nodes = u ++ x :: v ∧ LegalAt u.getLast? x ∧ findStartNode nodes 0 ≤ u.length ∧ p.position < u.length ∧
    (ctxAt l nodes ideal u.length x).feas ⟨p, []⟩ = true ∧
    q = (newBreak u.length ((ctxAt l nodes ideal u.length x).cls ⟨p, []⟩)
      (ctxAt l nodes ideal u.length x).tot ⟨p, []⟩).toPoint

/-- The points of a chain, the last one first. -/
inductive Chain (l : Options F) (nodes : List (Node F)) (ideal : F) : List (Point F) → Prop where
  | root : Chain l nodes ideal [rootPoint.toPoint]
  | cons {p q : Point F} {rest : List (Point F)} : Chain l nodes ideal (p :: rest) → Step l nodes ideal p q →
      Chain l nodes ideal (q :: p :: rest)

theorem findStartNode_le (nodes : List (Node F)) (k : Nat) :
    k ≤ findStartNode nodes k ∧ findStartNode nodes k ≤ k + nodes.length := by
  induction nodes generalizing k with
  | nil => simp [findStartNode]
  | cons x rest ih =>
    unfold findStartNode
    have h1 := ih k
    have h2 := ih (k + 1)
    simp only [List.length_cons]
    cases x.kind with
    | box => simp
    | penalty =>
      simp only
      split
      · omega
      · omega
    | glue => simp only; omega

theorem sumAt_succ (nodes u v : List (Node F)) (x : Node F) (h : nodes = u ++ x :: v)
    (hs : findStartNode nodes 0 ≤ u.length) :
    sumAt nodes (u.length + 1) = sumNode (sumAt nodes u.length) x := by
  unfold sumAt
  have e1 : nodes.take (u.length + 1) = u ++ [x] := by rw [h]; simp [List.take_append]
  have e2 : nodes.take u.length = u := by rw [h]; simp
  rw [e1, e2, List.drop_append_of_le_length hs, List.foldl_append]
  rfl

/-- The result of the step at a node. -/
def stepRes (rt : Runtime) (x : Ctx F) (act : List (BreakPoint F)) : Res (List (BreakPoint F)) :=
  mainLoop rt x.l x.nodes x.ideal x.sum x.index x.node act

open Classical in
/-- One round of the loop. -/
theorem breakLoop_cons (rt : Runtime) (l : Options F) (nodes : List (Node F)) (ideal : F)
    (u v : List (Node F)) (x : Node F) (h : nodes = u ++ x :: v) (hs : findStartNode nodes 0 ≤ u.length)
    (act : List (BreakPoint F)) :
    breakLoop rt l nodes ideal u.getLast? (x :: v) u.length (sumAt nodes u.length) act =
      ((if LegalAt u.getLast? x then stepRes rt (ctxAt l nodes ideal u.length x) act else .ok act) >>=
        fun act' => breakLoop rt l nodes ideal (u ++ [x]).getLast? v (u ++ [x]).length
          (sumAt nodes (u ++ [x]).length) act') := by
  have e3 : (u ++ [x]).length = u.length + 1 := by simp
  have e4 : (u ++ [x]).getLast? = some x := by simp
  rw [e3, e4, sumAt_succ nodes u v x h hs]
  rw [breakLoop]
  have hpos : ∀ y, u.getLast? = some y → u.length > 0 := by
    intro y hy
    cases u with
    | nil => simp at hy
    | cons a b => simp
  cases hk : x.kind with
  | box =>
    have : ¬ LegalAt u.getLast? x := by
      rintro (⟨g, _⟩ | ⟨g, _⟩) <;> rw [hk] at g <;> cases g
    rw [if_neg this]
    simp [sumNode, hk]
  | glue =>
    by_cases hg : u.getLast?.map Node.kind = some .box
    · have hl : LegalAt u.getLast? x := Or.inl ⟨hk, hg⟩
      have hp : u.length > 0 := by
        cases hu : u.getLast? with
        | none => rw [hu] at hg; cases hg
        | some y => exact hpos y hu
      simp only
      rw [if_pos hl, if_pos ⟨hp, hg⟩]
      simp [sumNode, hk, stepRes, ctxAt]
    · have hl : ¬ LegalAt u.getLast? x := by
        rintro (⟨_, g⟩ | ⟨g, _⟩)
        · exact hg g
        · rw [hk] at g; cases g
      simp only
      rw [if_neg hl, if_neg (fun c => hg c.2)]
      simp [sumNode, hk]
  | penalty =>
    by_cases hg : Arith.eq x.penalty infinity = true
    · have hl : ¬ LegalAt u.getLast? x := by
        rintro (⟨g, _⟩ | ⟨_, g⟩)
        · rw [hk] at g; cases g
        · rw [hg] at g; cases g
      simp only
      rw [if_neg hl, if_neg (by simpa using hg)]
      simp [sumNode, hk]
    · have hl : LegalAt u.getLast? x := Or.inr ⟨hk, by simpa using hg⟩
      simp only
      rw [if_pos hl, if_pos (by simpa using hg)]
      simp [sumNode, hk, stepRes, ctxAt]

variable [Laws F]

/-- The state of an active list when the node at `n` is reached. -/
def ActiveOk (l : Options F) (nodes : List (Node F)) (ideal : F) (n : Nat) (act : List (BreakPoint F)) : Prop :=
  ∀ a ∈ act, Chain l nodes ideal (a.toPoint :: a.previous) ∧ (a.position < n ∨ a.position = 0)

theorem stepRes_chain (rt : Runtime) (l : Options F) (nodes : List (Node F)) (ideal : F)
    (u v : List (Node F)) (x : Node F) (h : nodes = u ++ x :: v) (hs : findStartNode nodes 0 ≤ u.length)
    (hl : LegalAt u.getLast? x) (hu : u ≠ []) (act : List (BreakPoint F))
    (ha : ActiveOk l nodes ideal u.length act) :
    ∃ new, stepRes rt (ctxAt l nodes ideal u.length x) act =
        .ok (act.filter (ctxAt l nodes ideal u.length x).keep ++ new) ∧
      ∀ b ∈ new, Chain l nodes ideal (b.toPoint :: b.previous) ∧ b.position = u.length := by
  have hu' : 0 < u.length := List.length_pos_of_ne_nil hu
  have hlen : nodes.length = u.length + (v.length + 1) := by rw [h]; simp
  obtain ⟨new, h1, h2⟩ := mainLoop_mem rt (ctxAt l nodes ideal u.length x) act (by
    intro a hm
    have := (ha a hm).2
    simp only [ctxAt]
    omega)
  refine ⟨new, h1, fun b hb => ?_⟩
  obtain ⟨a, h3, h4, h5⟩ := h2 b hb
  subst h5
  refine ⟨?_, rfl⟩
  obtain ⟨g1, g2⟩ := ha a h3
  exact Chain.cons g1 ⟨u, x, v, h, hl, hs, by omega, h4, rfl⟩

theorem breakLoop_chain (rt : Runtime) (l : Options F) (nodes : List (Node F)) (ideal : F)
    (h0 : ∀ x, nodes[0]? = some x → ¬ LegalAt none x) (v u : List (Node F)) (act : List (BreakPoint F))
    (h : nodes = u ++ v) (hs : findStartNode nodes 0 ≤ u.length) (ha : ActiveOk l nodes ideal u.length act) :
    ∃ act', breakLoop rt l nodes ideal u.getLast? v u.length (sumAt nodes u.length) act = .ok act' ∧
      ActiveOk l nodes ideal nodes.length act' ∧
      (∀ z, v.getLast? = some z → z.isForcedBreak = true → Arith.eq z.penalty infinity = false →
        ∀ a ∈ act', a.position + 1 = nodes.length) := by
  induction v generalizing u act with
  | nil =>
    refine ⟨act, rfl, ?_, by simp⟩
    have : nodes.length = u.length := by rw [h]; simp
    rw [this]; exact ha
  | cons x v ih =>
    rw [breakLoop_cons rt l nodes ideal u v x h hs]
    have h' : nodes = (u ++ [x]) ++ v := by rw [h]; simp
    have hs' : findStartNode nodes 0 ≤ (u ++ [x]).length := by simp; omega
    have hlen : nodes.length = u.length + (v.length + 1) := by rw [h]; simp
    have hlast : ∀ z, (x :: v).getLast? = some z → (v = [] ∧ z = x) ∨ v.getLast? = some z := by
      intro z hz
      cases v with
      | nil => left; simpa using hz.symm
      | cons y v => right; simpa using hz
    by_cases hl : LegalAt u.getLast? x
    · rw [if_pos hl]
      have hu : u ≠ [] := by
        rintro rfl
        exact h0 x (by rw [h]; rfl) hl
      obtain ⟨new, h1, h2⟩ := stepRes_chain rt l nodes ideal u v x h hs hl hu act ha
      rw [h1, ok_bind]
      have ha' : ActiveOk l nodes ideal (u ++ [x]).length
          (act.filter (ctxAt l nodes ideal u.length x).keep ++ new) := by
        intro a hm
        rw [List.mem_append] at hm
        rcases hm with hm | hm
        · have := ha a (List.mem_of_mem_filter hm)
          refine ⟨this.1, ?_⟩
          simp; omega
        · have := h2 a hm
          refine ⟨this.1, ?_⟩
          simp; omega
      obtain ⟨act', g1, g2, g3⟩ := ih _ _ h' hs' ha'
      refine ⟨act', g1, g2, fun z hz hf hi a hm => ?_⟩
      rcases hlast z hz with ⟨hv, rfl⟩ | hz
      · subst hv
        have hk : ∀ b, (ctxAt l nodes ideal u.length z).keep b = false := by
          intro b
          simp [Ctx.keep, ctxAt, hf]
        rw [List.filter_eq_nil_iff.mpr (fun b _ => by simp [hk b]), List.nil_append] at g1
        simp only [breakLoop, Except.ok.injEq] at g1
        rw [← g1] at hm
        have := (h2 a hm).2
        simp at hlen; omega
      · exact g3 z hz hf hi a hm
    · rw [if_neg hl, ok_bind]
      have ha' : ActiveOk l nodes ideal (u ++ [x]).length act := by
        intro a hm
        have := ha a hm
        refine ⟨this.1, ?_⟩
        simp; omega
      obtain ⟨act', g1, g2, g3⟩ := ih _ _ h' hs' ha'
      refine ⟨act', g1, g2, fun z hz hf hi a hm => ?_⟩
      rcases hlast z hz with ⟨hv, rfl⟩ | hz
      · exfalso
        apply hl
        right
        refine ⟨?_, hi⟩
        unfold Node.isForcedBreak at hf
        simp only [Bool.and_eq_true, decide_eq_true_eq] at hf
        exact hf.1
      · exact g3 z hz hf hi a hm

omit [Laws F] in
theorem chain_zero {l : Options F} {nodes : List (Node F)} {ideal : F} {ps : List (Point F)}
    (h : Chain l nodes ideal ps) : ∀ p ∈ ps, p.totalDemerits = zero ∧ p.ratio = zero := by
  induction h with
  | root => intro p hp; simp at hp; subst hp; exact ⟨rfl, rfl⟩
  | @cons p' q rest h1 h2 ih =>
    intro p hp
    simp only [List.mem_cons] at hp
    rcases hp with rfl | hp
    · obtain ⟨u, x, v, _, _, _, _, _, e⟩ := h2
      subst e
      exact ih p' (by simp)
    · exact ih p (by simpa using hp)

/-- The break points: none, or a chain that ends at the last node. -/
theorem breakPoints_chain (rt : Runtime) (l : Options F) (nodes : List (Node F)) (ideal : F)
    (h0 : ∀ x, nodes[0]? = some x → ¬ LegalAt none x)
    (hz : ∃ z, nodes.getLast? = some z ∧ z.isForcedBreak = true ∧ Arith.eq z.penalty infinity = false)
    (hn : findStartNode nodes 0 < nodes.length) (hn2 : 1 < nodes.length) :
    ∃ act, breakLoop rt l nodes ideal (if findStartNode nodes 0 = 0 then none else nodes[findStartNode nodes 0 - 1]?)
        (nodes.drop (findStartNode nodes 0)) (findStartNode nodes 0) Sums.zero [rootPoint] = .ok act ∧
      (∀ a ∈ act, Chain l nodes ideal (a.toPoint :: a.previous) ∧ a.position + 1 = nodes.length) ∧
      breakPoints rt l nodes ideal =
        .ok (act.head?.map (fun a => (a.toPoint :: a.previous).reverse)) := by
  have hsum : Sums.zero = sumAt nodes (findStartNode nodes 0) := by
    unfold sumAt
    rw [List.drop_eq_nil_of_le (by simp)]
    rfl
  have hprev : (if findStartNode nodes 0 = 0 then none else nodes[findStartNode nodes 0 - 1]?) =
      (nodes.take (findStartNode nodes 0)).getLast? := by
    split
    · rename_i h; rw [h]; simp
    · rename_i h
      rw [List.getLast?_eq_getElem?, List.length_take, Nat.min_eq_left (by omega)]
      rw [List.getElem?_take]
      simp; omega
  have hl : (nodes.take (findStartNode nodes 0)).length = findStartNode nodes 0 := by simp; omega
  obtain ⟨act, h1, h2, h3⟩ := breakLoop_chain rt l nodes ideal h0 (nodes.drop (findStartNode nodes 0))
    (nodes.take (findStartNode nodes 0)) [rootPoint] (by simp) (by omega) (by
      intro a ha
      simp at ha
      subst ha
      exact ⟨Chain.root, Or.inr rfl⟩)
  rw [hl, ← hprev, ← hsum] at h1
  obtain ⟨z, z1, z2, z3⟩ := hz
  have hlast : (nodes.drop (findStartNode nodes 0)).getLast? = some z := by
    rw [List.getLast?_drop, if_neg (by omega), z1]
  have hpos := h3 z hlast z2 z3
  refine ⟨act, h1, fun a ha => ⟨(h2 a ha).1, hpos a ha⟩, ?_⟩
  unfold breakPoints
  simp only [h1, ok_bind, pure_eq_ok]
  cases act with
  | nil => simp
  | cons a rest =>
    simp only [List.length_cons, Nat.zero_lt_succ, if_true, List.head?_cons, Option.map_some, gt_iff_lt]
    have hzero : ∀ b ∈ a :: rest, b.totalDemerits = zero := fun b hb =>
      (chain_zero (h2 b hb).1 b.toPoint (by simp)).1
    have hbest : findBestBreak (a :: rest) noBreak = a := by
      have hno : Arith.lt (zero : F) zero = false := by
        cases hc : Arith.lt (zero : F) zero with
        | false => rfl
        | true =>
          have := Laws.lt_asymm _ _ hc
          rw [hc] at this; cases this
      have hrest : ∀ (bs : List (BreakPoint F)), (∀ b ∈ bs, b.totalDemerits = zero) → findBestBreak bs a = a := by
        intro bs
        induction bs with
        | nil => intro _; rfl
        | cons b bs ih =>
          intro hb
          unfold findBestBreak
          rw [hb b (by simp), hzero a (by simp), hno]
          simp only [Bool.false_eq_true, if_false]
          exact ih (fun c hc => hb c (by simp [hc]))
      unfold findBestBreak
      have : Arith.lt a.totalDemerits (noBreak : BreakPoint F).totalDemerits = true := by
        rw [hzero a (by simp)]; exact Laws.zero_lt_max
      rw [this, if_pos rfl]
      exact hrest rest (fun b hb => hzero b (by simp [hb]))
    rw [hbest]
    unfold reverseBreakPoints
    have hprev : a.previous ≠ [] := by
      intro hc
      have hch := (h2 a (by simp)).1
      have hp := hpos a (by simp)
      rw [hc] at hch
      generalize hq : a.toPoint = q at hch
      cases hch with
      | root =>
        have : a.position = 0 := by rw [hq]; rfl
        omega
    rw [if_neg hprev]
    simp

end Verif.Proofs.LB
