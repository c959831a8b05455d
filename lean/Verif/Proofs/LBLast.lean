import Verif.Go.FloatMore
import Verif.Proofs.LBSafe

/-! # There is text on the last line, whatever the numbers

No break point leaves the list before the end of the paragraph. A break point without text behind it comes after the one
it was reached from; and from that one, the end of the paragraph is reached too, as a line of the same class. -/

namespace Verif.Proofs.LB
open Verif.Go Verif.Model Verif.Model.LB Verif.Spec Verif.Spec.Ansi Verif.Spec.LB Verif.Props

variable {F : Type} [Arith F]

set_option linter.unusedSectionVars false

/-- What is known of the sums of nodes; `e` is the stretch left out at the start. -/
structure Tally (N : List (Node F)) (e : Bool) : Prop where
  stretch : ∀ i, findStartNode N 0 ≤ i → i + 1 < N.length → ∃ c : Bool, (sumAt N i).stretch = Arith.ofInt (lifted c - lifted e)
  last : (sumAt N (N.length - 1)).stretch = Arith.ofInt (10000 - lifted e)
  shrink : ∀ i, (sumAt N i).shrink = Arith.ofInt 0
  kept : ∀ i, Arith.add (sumAt N i).width (Arith.ofInt 0) = (sumAt N i).width
  free : ∀ u x v, N = u ++ x :: v → v ≠ [] → x.isForcedBreak = false
  behind : ∀ u x v, N = u ++ x :: v → v ≠ [] → LegalAt u.getLast? x → findStartNode N 0 ≤ u.length → (∀ y ∈ v, y.kind ≠ .box) →
    (sumAt N (N.length - 1)).width = (sumAt N u.length).width ∧ (x.kind = .penalty → x.sums.width = zero)

/-- Totals of break points. -/
def IsTotal (N : List (Node F)) (t : Sums F) : Prop :=
  t = Sums.zero ∨ ∃ k, findStartNode N 0 ≤ k ∧ k < N.length ∧ t = sumAt N k

/-- The sums after the glues that follow are the ones before some node. -/
theorem sumFrom_at (N : List (Node F)) (hlast : ∃ u, N = u ++ [newPenalty zero minusInfinity true])
    (hforced : (newPenalty zero minusInfinity true : Node F).isForcedBreak = true)
    (v : List (Node F)) (u : List (Node F)) (b : Bool) (hN : N = u ++ v) (hv : v ≠ []) (hs : findStartNode N 0 ≤ u.length) :
    ∃ k, findStartNode N 0 ≤ k ∧ k < N.length ∧ (b = false ∨ v.length > 1 → sumFromLoop b v (sumAt N u.length) = sumAt N k) := by
  induction v generalizing u b with
  | nil => exact absurd rfl hv
  | cons x v ih =>
    have hlt : u.length < N.length := by rw [hN]; simp
    by_cases hstop : x.kind = .box ∨ (x.isForcedBreak = true ∧ ¬ b = true)
    · refine ⟨u.length, hs, hlt, fun _ => ?_⟩
      have hg : x.kind ≠ .glue := by
        rcases hstop with h | ⟨h, _⟩
        · rw [h]; simp
        · intro hk; simp [Node.isForcedBreak, hk] at h
      unfold sumFromLoop
      rw [if_neg hg, if_pos (by simpa using hstop)]
    · have hN' : N = (u ++ [x]) ++ v := by rw [hN]; simp
      have hsum := sumAt_succ N u v x hN hs
      have hstep : sumFromLoop b (x :: v) (sumAt N u.length) = sumFromLoop false v (sumAt N (u ++ [x]).length) := by
        rw [List.length_append, List.length_singleton, hsum]
        conv => lhs; unfold sumFromLoop
        unfold sumNode
        cases hk : x.kind with
        | box => exact absurd (Or.inl hk) hstop
        | glue => simp
        | penalty =>
          simp only [hk] at hstop
          simp at hstop
          simp
          intro h1 h2
          exact absurd (hstop h1) (by simp [h2])
      cases v with
      | nil =>
        refine ⟨u.length, hs, hlt, fun hb => ?_⟩
        exfalso
        rcases hb with hb | hb
        · obtain ⟨w, hw⟩ := hlast
          rw [hN] at hw
          have := (List.append_inj' hw rfl).2
          simp only [List.cons.injEq, and_true] at this
          rw [this] at hstop
          exact hstop (Or.inr ⟨hforced, by simp [hb]⟩)
        · simp at hb
      | cons y v =>
        obtain ⟨k, k1, k2, k3⟩ := ih (u ++ [x]) false hN' (by simp) (by simp; omega)
        exact ⟨k, k1, k2, fun _ => by rw [hstep]; exact k3 (Or.inl rfl)⟩

/-- Nothing but glue is left: the totals are the sums at the end. -/
theorem sumFrom_end (N : List (Node F)) (v u : List (Node F)) (b : Bool) (hN : N = u ++ v ++ [newPenalty zero minusInfinity true])
    (hforced : (newPenalty zero minusInfinity true : Node F).isForcedBreak = true)
    (hs : findStartNode N 0 ≤ u.length) (hv : ∀ x ∈ v, x.kind ≠ .box ∧ x.isForcedBreak = false) :
    sumFromLoop b (v ++ [newPenalty zero minusInfinity true]) (sumAt N u.length) = sumAt N (N.length - 1) := by
  induction v generalizing u b with
  | nil =>
    have : N.length - 1 = u.length := by rw [hN]; simp
    rw [this]
    unfold sumFromLoop
    simp only [List.nil_append]
    have hk : (newPenalty zero minusInfinity true : Node F).kind = .penalty := rfl
    simp [hk, sumFromLoop]
  | cons x v ih =>
    obtain ⟨h1, h2⟩ := hv x (by simp)
    have hN' : N = (u ++ [x]) ++ v ++ [newPenalty zero minusInfinity true] := by rw [hN]; simp
    have hN2 : N = u ++ x :: (v ++ [newPenalty zero minusInfinity true]) := by rw [hN]; simp
    have hsum := sumAt_succ N u _ x hN2 hs
    rw [← ih (u ++ [x]) false hN' (by simp; omega) (fun y hy => hv y (by simp [hy])), List.length_append, List.length_singleton,
      hsum, List.cons_append]
    conv => lhs; unfold sumFromLoop
    unfold sumNode
    cases hk : x.kind with
    | box => exact absurd hk h1
    | glue => simp
    | penalty => simp [h2]

/-- Break points come after the ones they are reached from. -/
def BornL (o : Options F) (N : List (Node F)) (ideal : F) : List (Sums F) → List (BreakPoint F) → Prop
  | _, [] => True
  | seen, b :: bs => IsTotal N b.totals ∧ ((b.previous = [] ∧ b.position = 0) ∨ ∃ t ∈ seen, IsTotal N t ∧ ∃ u x v, N = u ++ x :: v ∧ v ≠ [] ∧
      LegalAt u.getLast? x ∧ findStartNode N 0 ≤ u.length ∧ b.position = u.length ∧ b.totals = totAt N u.length ∧
      (Arith.le (Arith.ofInt (-1)) (adjustmentRatio t x (sumAt N u.length) ideal) &&
        Arith.le (adjustmentRatio t x (sumAt N u.length) ideal) o.tolerance) = true) ∧ BornL o N ideal (b.totals :: seen) bs

variable {o : Options F} {N : List (Node F)} {ideal : F}

theorem BornL.total {seen : List (Sums F)} {bs : List (BreakPoint F)} (h : BornL o N ideal seen bs) : ∀ b ∈ bs, IsTotal N b.totals := by
  induction bs generalizing seen with
  | nil => intro b hb; cases hb
  | cons a bs ih =>
    intro b hb
    rcases List.mem_cons.mp hb with rfl | hb
    · exact h.1
    · exact ih h.2.2 b hb

theorem BornL.append {seen : List (Sums F)} {bs cs : List (BreakPoint F)} (h : BornL o N ideal seen bs)
    (hc : ∀ c ∈ cs, IsTotal N c.totals ∧ ∃ t, (t ∈ seen ∨ ∃ b ∈ bs, b.totals = t) ∧ IsTotal N t ∧ ∃ u x v, N = u ++ x :: v ∧ v ≠ [] ∧
      LegalAt u.getLast? x ∧ findStartNode N 0 ≤ u.length ∧ c.position = u.length ∧ c.totals = totAt N u.length ∧
      (Arith.le (Arith.ofInt (-1)) (adjustmentRatio t x (sumAt N u.length) ideal) &&
        Arith.le (adjustmentRatio t x (sumAt N u.length) ideal) o.tolerance) = true) : BornL o N ideal seen (bs ++ cs) := by
  induction bs generalizing seen with
  | nil =>
    rw [List.nil_append]
    induction cs generalizing seen with
    | nil => exact True.intro
    | cons c cs ih =>
      obtain ⟨h0, t, h1, h2⟩ := hc c (by simp)
      refine ⟨h0, Or.inr ⟨t, ?_, h2⟩, ih True.intro (fun x hx => ?_)⟩
      · rcases h1 with h1 | ⟨b, hb, _⟩
        · exact h1
        · cases hb
      · obtain ⟨h3, t', h4, h5⟩ := hc x (by simp [hx])
        refine ⟨h3, t', ?_, h5⟩
        rcases h4 with h4 | ⟨b, hb, _⟩
        · exact Or.inl (List.mem_cons_of_mem _ h4)
        · cases hb
  | cons a bs ih =>
    refine ⟨h.1, h.2.1, ih h.2.2 (fun c hm => ?_)⟩
    obtain ⟨h0, t, h1, h2⟩ := hc c hm
    refine ⟨h0, t, ?_, h2⟩
    rcases h1 with h1 | ⟨b, hb, e⟩
    · exact Or.inl (List.mem_cons_of_mem _ h1)
    · rcases List.mem_cons.mp hb with rfl | hb
      · exact Or.inl (by rw [e]; simp)
      · exact Or.inr ⟨b, hb, e⟩

theorem BornL.find {seen : List (Sums F)} {bs : List (BreakPoint F)} (h : BornL o N ideal seen bs)
    (f : Sums F → Bool) (hf : ∀ t ∈ seen, f t = false) {c : BreakPoint F} (hc : bs.find? (fun b => f b.totals) = some c) :
    f c.totals = true ∧ ((c.previous = [] ∧ c.position = 0) ∨ ∃ t, f t = false ∧ IsTotal N t ∧ ∃ u x v, N = u ++ x :: v ∧ v ≠ [] ∧
      LegalAt u.getLast? x ∧ findStartNode N 0 ≤ u.length ∧ c.position = u.length ∧ c.totals = totAt N u.length ∧
      (Arith.le (Arith.ofInt (-1)) (adjustmentRatio t x (sumAt N u.length) ideal) &&
        Arith.le (adjustmentRatio t x (sumAt N u.length) ideal) o.tolerance) = true) := by
  induction bs generalizing seen with
  | nil => cases hc
  | cons a bs ih =>
    rw [List.find?_cons] at hc
    cases e : f a.totals with
    | true =>
      rw [e] at hc
      cases hc
      refine ⟨e, ?_⟩
      rcases h.2.1 with h2 | ⟨t, h2, h3⟩
      · exact Or.inl h2
      · exact Or.inr ⟨t, hf t h2, h3⟩
    | false =>
      rw [e] at hc
      exact ih h.2.2 (fun t ht => by
        rcases List.mem_cons.mp ht with rfl | ht
        · exact e
        · exact hf t ht) hc

variable [Laws F] [MoreLaws F]

theorem lifted_small (b : Bool) : lifted b = 0 ∨ lifted b = 6 := by cases b <;> simp [lifted]

theorem sub_ints (a b : Int) (ha : |a| ≤ 100000) (hb : |b| ≤ 100000) :
    Arith.sub (Arith.ofInt a : F) (Arith.ofInt b) = Arith.ofInt (a - b) :=
  Laws.sub_int a b (small a (by omega)) (small b (by omega)) (small _ (by
    rw [abs_le] at *
    omega))

theorem lt_zero_int (m : Int) (hm : |m| ≤ 1000000) : Arith.lt (zero : F) (Arith.ofInt m) = decide (0 < m) :=
  Laws.lt_int 0 m (small 0 (by decide)) (small m hm)

/-- The numbers of totals. -/
theorem total_ints {e : Bool} (h : Tally N e) {t : Sums F} (ht : IsTotal N t) : t.shrink = Arith.ofInt 0 ∧
    (t = sumAt N (N.length - 1) ∨ ∃ c d : Bool, t.stretch = Arith.ofInt (lifted c - lifted d) ∧ (d = e ∨ c = d)) := by
  rcases ht with rfl | ⟨k, h1, h2, rfl⟩
  · exact ⟨rfl, Or.inr ⟨e, e, by simp [Sums.zero], Or.inl rfl⟩⟩
  · refine ⟨h.shrink k, ?_⟩
    by_cases hk : k + 1 < N.length
    · obtain ⟨c, hc⟩ := h.stretch k h1 hk
      exact Or.inr ⟨c, e, hc, Or.inl rfl⟩
    · left
      rw [show N.length - 1 = k by omega]

/-- The ratio of a line of width `A` with an integer stretch, and without shrinking. -/
def ratioBy (A ideal : F) (m : Int) : F :=
  if Arith.lt A ideal then (if 0 < m then Arith.div (Arith.sub ideal A) (Arith.ofInt m) else infinity)
  else if Arith.lt ideal A then infinity else zero

theorem ratio_by {s t : Sums F} {x : Node F} (a b : Int) (ha : |a| ≤ 100000) (hb : |b| ≤ 100000) (h1 : s.stretch = Arith.ofInt a)
    (h2 : t.stretch = Arith.ofInt b) (h3 : s.shrink = Arith.ofInt 0) (h4 : t.shrink = Arith.ofInt 0) :
    adjustmentRatio t x s ideal = ratioBy (if x.kind = .penalty then Arith.add (Arith.sub s.width t.width) x.sums.width
      else Arith.sub s.width t.width) ideal (a - b) := by
  have hab : |a - b| ≤ 1000000 := by rw [abs_le] at *; omega
  unfold adjustmentRatio ratioBy
  simp only [h1, h2, h3, h4, sub_ints a b ha hb, sub_ints 0 0 (by decide) (by decide), sub_self]
  rw [lt_zero_int _ hab, lt_zero_int 0 (by decide)]
  simp only [decide_eq_true_eq, lt_self_iff_false, if_false]

/-- The ratio of a line is not below -1. -/
theorem ratio_low {s t : Sums F} {x : Node F} (a b : Int) (ha : |a| ≤ 100000) (hb : |b| ≤ 100000) (h1 : s.stretch = Arith.ofInt a)
    (h2 : t.stretch = Arith.ofInt b) (h3 : s.shrink = Arith.ofInt 0) (h4 : t.shrink = Arith.ofInt 0) :
    Arith.lt (adjustmentRatio t x s ideal) (Arith.ofInt (-1)) = false := by
  have hab : |a - b| ≤ 1000000 := by rw [abs_le] at *; omega
  have hinf : Arith.lt (infinity : F) (Arith.ofInt (-1)) = false := by
    unfold infinity
    rw [Laws.lt_int 10000 (-1) (small _ (by decide)) (small _ (by decide))]; rfl
  rw [ratio_by a b ha hb h1 h2 h3 h4]
  generalize (if x.kind = .penalty then Arith.add (Arith.sub s.width t.width) x.sums.width else Arith.sub s.width t.width) = A
  unfold ratioBy
  cases hl : Arith.lt A ideal with
  | true =>
    rw [if_pos rfl]
    by_cases hm : 0 < a - b
    · rw [if_pos hm]
      have hd := MoreLaws.div_pos' (Arith.sub ideal A) (a - b) hm (by rw [abs_le] at hab; omega) (MoreLaws.sub_pos _ _ hl)
      cases hr : Arith.lt (Arith.div (Arith.sub ideal A) (Arith.ofInt (a - b))) (Arith.ofInt (-1)) with
      | false => rfl
      | true =>
        have := Laws.lt_of_le _ _ _ hd hr
        rw [Laws.lt_int 0 (-1) (small _ (by decide)) (small _ (by decide))] at this
        cases this
    · rw [if_neg hm, hinf]
  | false =>
    rw [if_neg (by simp)]
    cases hl2 : Arith.lt ideal A with
    | true => rw [if_pos rfl, hinf]
    | false =>
      rw [if_neg (by simp)]
      unfold zero
      rw [Laws.lt_int 0 (-1) (small _ (by decide)) (small _ (by decide))]; rfl

theorem one_of {r : F} (h1 : Arith.le (Arith.ofInt 0) r = true) (h2 : Arith.le r (Arith.tenths 5) = true) : newFitnessClass r = .one := by
  unfold newFitnessClass
  rw [Laws.minus_half r h1, h2]
  simp

theorem minus_le_zero : Arith.le (Arith.ofInt (-1) : F) (Arith.ofInt 0) = true := by
  rw [Laws.le_int (-1) 0 (small _ (by decide)) (small _ (by decide))]; rfl

theorem zero_le_zero' : Arith.le (Arith.ofInt 0 : F) (Arith.ofInt 0) = true := by
  rw [Laws.le_int 0 0 (small _ (by decide)) (small _ (by decide))]; rfl

theorem inf_high {tol : F} (hb : Arith.le tol (Arith.ofInt 50) = true) : Arith.le (infinity : F) tol = false := by
  cases h : Arith.le (infinity : F) tol with
  | false => rfl
  | true =>
    have := Laws.le_trans _ _ _ h hb
    unfold infinity at this
    rw [Laws.le_int 10000 50 (small _ (by decide)) (small _ (by decide))] at this
    cases this

/-- The end of the paragraph is reached from `t`, as a line of class `c`. -/
def ends (o : Options F) (N : List (Node F)) (ideal : F) (c : Class) (t : Sums F) : Bool :=
  (Arith.le (Arith.ofInt (-1)) (adjustmentRatio t (newPenalty zero minusInfinity true) (sumAt N (N.length - 1)) ideal) &&
    Arith.le (adjustmentRatio t (newPenalty zero minusInfinity true) (sumAt N (N.length - 1)) ideal) o.tolerance) &&
    decide (newFitnessClass (adjustmentRatio t (newPenalty zero minusInfinity true) (sumAt N (N.length - 1)) ideal) = c)

/-- A blank line at the end has class 1. -/
theorem blank_class {e : Bool} (h : Tally N e) (hb : Arith.le o.tolerance (Arith.ofInt 50) = true) {c : Class}
    (hr : ends o N ideal c (sumAt N (N.length - 1)) = true) : c = .one := by
  have hl := lifted_small e
  have hs : |(10000 : Int) - lifted e| ≤ 100000 := by rw [abs_le]; omega
  unfold ends at hr
  rw [ratio_by _ _ hs hs h.last h.last (h.shrink _) (h.shrink _), sub_self] at hr
  simp only [Bool.and_eq_true, decide_eq_true_eq] at hr
  obtain ⟨⟨_, h2⟩, h3⟩ := hr
  revert h2 h3
  generalize (if (newPenalty zero minusInfinity true : Node F).kind = .penalty then
    Arith.add (Arith.sub (sumAt N (N.length - 1)).width (sumAt N (N.length - 1)).width) (newPenalty zero minusInfinity true : Node F).sums.width
    else Arith.sub (sumAt N (N.length - 1)).width (sumAt N (N.length - 1)).width) = A
  unfold ratioBy
  rw [if_neg (lt_irrefl (0 : Int))]
  by_cases hA : Arith.lt A ideal = true
  · rw [if_pos hA]
    intro _ h2; rw [inf_high hb] at h2; cases h2
  · rw [if_neg hA]
    by_cases hA2 : Arith.lt ideal A = true
    · rw [if_pos hA2]
      intro _ h2; rw [inf_high hb] at h2; cases h2
    · rw [if_neg hA2]
      intro h3 _
      rw [← h3]
      exact one_of zero_le_zero' Laws.zero_half

/-- From where a break point without text behind it was reached, the end is reached. -/
theorem origin_ends {e : Bool} (h : Tally N e) (hb : Arith.le o.tolerance (Arith.ofInt 50) = true) {t : Sums F} (ht : IsTotal N t)
    {u v : List (Node F)} {x : Node F} (hN : N = u ++ x :: v) (hv : v ≠ []) (hl : LegalAt u.getLast? x)
    (hs : findStartNode N 0 ≤ u.length) (hno : ∀ y ∈ v, y.kind ≠ .box)
    (hf : (Arith.le (Arith.ofInt (-1)) (adjustmentRatio t x (sumAt N u.length) ideal) &&
      Arith.le (adjustmentRatio t x (sumAt N u.length) ideal) o.tolerance) = true) :
    t = sumAt N (N.length - 1) ∨ ends o N ideal .one t = true := by
  obtain ⟨s1, s2 | ⟨c, d, s2, s3⟩⟩ := total_ints h ht
  · exact Or.inl s2
  right
  obtain ⟨b1, b2⟩ := h.behind u x v hN hv hl hs hno
  have hlen : u.length + 1 < N.length := by
    rw [hN]
    have := List.length_pos_of_ne_nil hv
    simp
    omega
  obtain ⟨c', hc'⟩ := h.stretch u.length hs hlen
  have l1 := lifted_small c
  have l2 := lifted_small d
  have l3 := lifted_small e
  have l4 := lifted_small c'
  have hcd : |lifted c - lifted d| ≤ 100000 := by rw [abs_le]; omega
  have hce : |lifted c' - lifted e| ≤ 100000 := by rw [abs_le]; omega
  have hee : |(10000 : Int) - lifted e| ≤ 100000 := by rw [abs_le]; omega
  have hx : (if x.kind = .penalty then Arith.add (Arith.sub (sumAt N u.length).width t.width) x.sums.width
      else Arith.sub (sumAt N u.length).width t.width) = Arith.sub (sumAt N u.length).width t.width := by
    split
    · rename_i hk
      rw [b2 hk]
      exact MoreLaws.sub_keep _ _ (h.kept _)
    · rfl
  have hy : Arith.add (Arith.sub (sumAt N u.length).width t.width) (zero : F) = Arith.sub (sumAt N u.length).width t.width :=
    MoreLaws.sub_keep _ _ (h.kept _)
  have hk : (newPenalty zero minusInfinity true : Node F).kind = .penalty := rfl
  have hw : (newPenalty zero minusInfinity true : Node F).sums.width = zero := rfl
  unfold ends
  rw [ratio_by _ _ hee hcd h.last s2 (h.shrink _) s1, if_pos hk, hw, b1, hy]
  rw [ratio_by _ _ hce hcd hc' s2 (h.shrink _) s1, hx] at hf
  simp only [Bool.and_eq_true, decide_eq_true_eq] at hf ⊢
  obtain ⟨hf1, hf2⟩ := hf
  generalize Arith.sub (sumAt N u.length).width t.width = A at hf1 hf2 ⊢
  unfold ratioBy at hf1 hf2 ⊢
  by_cases hA : Arith.lt A ideal = true
  · rw [if_pos hA] at hf1 hf2 ⊢
    by_cases hm : 0 < lifted c' - lifted e - (lifted c - lifted d)
    · rw [if_pos hm] at hf1 hf2
      have e6 : lifted c' - lifted e - (lifted c - lifted d) = 6 := by
        rcases s3 with rfl | rfl
        · omega
        · omega
      have hn : 0 < 10000 - lifted e - (lifted c - lifted d) := by omega
      rw [e6] at hf1 hf2
      rw [if_pos hn]
      have hpos := MoreLaws.sub_pos _ _ hA
      have p1 := MoreLaws.div_pos' (Arith.sub ideal A) (10000 - lifted e - (lifted c - lifted d)) hn (by omega) hpos
      refine ⟨⟨Laws.le_trans _ _ _ minus_le_zero p1, ?_⟩, ?_⟩
      · exact Laws.le_trans _ _ _ (MoreLaws.div_anti (Arith.sub ideal A) 6 (10000 - lifted e - (lifted c - lifted d)) (by decide) (by omega) (by omega) hpos) hf2
      · exact one_of p1 (MoreLaws.div_small _ _ (by omega) (by omega) hpos (Laws.le_trans _ _ _ hf2 hb))
    · rw [if_neg hm, inf_high hb] at hf2
      cases hf2
  · rw [if_neg hA] at hf1 hf2 ⊢
    by_cases hA2 : Arith.lt ideal A = true
    · rw [if_pos hA2, inf_high hb] at hf2
      cases hf2
    · rw [if_neg hA2] at hf1 hf2 ⊢
      exact ⟨⟨hf1, hf2⟩, one_of zero_le_zero' Laws.zero_half⟩

theorem final_forced : (newPenalty zero minusInfinity true : Node F).isForcedBreak = true := by
  unfold Node.isForcedBreak newPenalty minusInfinity
  rw [eq_small (F := F) (-10000) (-10000) (by decide) (by decide)]; rfl

theorem total_at (hlast : ∃ u, N = u ++ [newPenalty zero minusInfinity true]) {u v : List (Node F)} {x : Node F} (hN : N = u ++ x :: v)
    (hv : v ≠ []) (hs : findStartNode N 0 ≤ u.length) : IsTotal N (totAt N u.length) := by
  obtain ⟨k, k1, k2, k3⟩ := sumFrom_at N hlast final_forced (x :: v) u true hN (by simp) hs
  refine Or.inr ⟨k, k1, k2, ?_⟩
  rw [← k3 (Or.inr (by have := List.length_pos_of_ne_nil hv; simp; omega))]
  unfold totAt sumFromNode
  congr 1
  conv => lhs; rw [hN]
  simp

/-- All break points stay, before the end. -/
theorem all_kept {e : Bool} (h : Tally N e) {u v : List (Node F)} {x : Node F} (hN : N = u ++ x :: v) (hv : v ≠ [])
    (hs : findStartNode N 0 ≤ u.length) {act : List (BreakPoint F)} (ha : BornL o N ideal [] act) :
    act.filter (ctxAt o N ideal u.length x).keep = act := by
  rw [List.filter_eq_self]
  intro a hm
  have hlen : u.length + 1 < N.length := by
    rw [hN]
    have := List.length_pos_of_ne_nil hv
    simp
    omega
  obtain ⟨c', hc'⟩ := h.stretch u.length hs hlen
  have l3 := lifted_small e
  have l4 := lifted_small c'
  have hce : |lifted c' - lifted e| ≤ 100000 := by rw [abs_le]; omega
  obtain ⟨s1, s2⟩ := total_ints h (ha.total a hm)
  have key : Arith.lt (adjustmentRatio a.totals x (sumAt N u.length) ideal) (Arith.ofInt (-1)) = false := by
    rcases s2 with s2 | ⟨c, d, s2, _⟩
    · exact ratio_low _ (10000 - lifted e) hce (by rw [abs_le]; omega) hc' (by rw [s2]; exact h.last) (h.shrink _) s1
    · have l1 := lifted_small c
      have l2 := lifted_small d
      exact ratio_low _ _ hce (by rw [abs_le]; omega) hc' s2 (h.shrink _) s1
  unfold Ctx.keep
  show (!(Arith.lt (adjustmentRatio a.totals x (sumAt N u.length) ideal) (Arith.ofInt (-1)) || x.isForcedBreak)) = true
  rw [key, h.free u x v hN hv]
  rfl

/-- A step before the end. -/
theorem step_born (rt : Runtime) (hu : Costs o) {e : Bool} (h : Tally N e) (hlast : ∃ u, N = u ++ [newPenalty zero minusInfinity true])
    {u v : List (Node F)} {x : Node F} (hN : N = u ++ x :: v) (hv : v ≠ []) (hx : Mild x) (hl : LegalAt u.getLast? x)
    (hs : findStartNode N 0 ≤ u.length) {act : List (BreakPoint F)} (hlive : Live N act) (ha : BornL o N ideal [] act) :
    ∃ res, stepRes rt (ctxAt o N ideal u.length x) act = .ok res ∧ Live N res ∧ BornL o N ideal [] res := by
  have hlt : u.length < N.length := by rw [hN]; simp
  have h1 := mainLoop_tame rt (ctxAt o N ideal u.length x) act (fun a h => (hlive a h).1) (fun a h => (hlive a h).2)
    (ctx_tame hu hx hlive)
  rw [all_kept h hN hv hs ha] at h1
  refine ⟨_, h1, ?_, ha.append ?_⟩
  · intro b hb
    rcases List.mem_append.mp hb with hb | hb
    · exact hlive b hb
    · rw [List.mem_filterMap] at hb
      obtain ⟨c, _, hb⟩ := hb
      cases hp : (ctxAt o N ideal u.length x).pick act c with
      | none => rw [hp] at hb; cases hb
      | some a =>
        rw [hp] at hb
        cases hb
        exact ⟨hlt, (hlive a (List.mem_of_find?_eq_some hp)).2⟩
  · intro b hb
    rw [List.mem_filterMap] at hb
    obtain ⟨c, _, hb⟩ := hb
    cases hp : (ctxAt o N ideal u.length x).pick act c with
    | none => rw [hp] at hb; cases hb
    | some a =>
      rw [hp] at hb
      cases hb
      have m1 : a ∈ act := List.mem_of_find?_eq_some hp
      have m2 := List.find?_some hp
      simp only [Bool.and_eq_true] at m2
      exact ⟨total_at hlast hN hv hs, a.totals, Or.inr ⟨a, m1, rfl⟩, ha.total a m1, u, x, v, hN, hv, hl, hs, rfl, rfl, m2.1⟩

/-- A box is at or after the position. -/
def BoxFrom (N : List (Node F)) (p : Nat) : Prop := ∃ k x, p ≤ k ∧ N[k]? = some x ∧ x.kind = .box

/-- The step at the end. -/
theorem step_last (rt : Runtime) (hu : Costs o) {e : Bool} (h : Tally N e) {u : List (Node F)}
    (hN : N = u ++ [newPenalty zero minusInfinity true]) (hbox : BoxFrom N 0) {act : List (BreakPoint F)} (hlive : Live N act)
    (ha : BornL o N ideal [] act) (hx : Mild (newPenalty zero minusInfinity true : Node F)) :
    ∃ res, stepRes rt (ctxAt o N ideal u.length (newPenalty zero minusInfinity true)) act = .ok res ∧
      ∀ b ∈ res, ∃ p, b.previous.head? = some p ∧ BoxFrom N p.position := by
  have h1 := mainLoop_tame rt (ctxAt o N ideal u.length (newPenalty zero minusInfinity true)) act (fun a h => (hlive a h).1)
    (fun a h => (hlive a h).2) (ctx_tame hu hx hlive)
  have hlen : N.length - 1 = u.length := by rw [hN]; simp
  refine ⟨_, h1, ?_⟩
  intro b hb
  rcases List.mem_append.mp hb with hb | hb
  · have := (List.mem_filter.mp hb).2
    unfold Ctx.keep at this
    simp [ctxAt, final_forced] at this
  · rw [List.mem_filterMap] at hb
    obtain ⟨c, _, hb⟩ := hb
    cases hp : (ctxAt o N ideal u.length (newPenalty zero minusInfinity true)).pick act c with
    | none => rw [hp] at hb; cases hb
    | some a =>
      rw [hp] at hb
      cases hb
      refine ⟨a.toPoint, rfl, ?_⟩
      have hp' : act.find? (fun a => ends o N ideal c a.totals) = some a := by
        unfold ends
        rw [hlen]
        exact hp
      obtain ⟨m1, m2⟩ := ha.find (ends o N ideal c) (by simp) hp'
      rcases m2 with ⟨_, m2⟩ | ⟨t, t1, t2, u', x, v, e1, e2, e3, e4, e5, e6, e7⟩
      · show BoxFrom N a.position
        rw [m2]; exact hbox
      · by_contra hno
        have hbx : ∀ y ∈ v, y.kind ≠ .box := by
          intro y hy hk
          obtain ⟨i, hi, rfl⟩ := List.getElem_of_mem hy
          refine hno ⟨u'.length + 1 + i, v[i], ?_, ?_, hk⟩
          · show a.position ≤ _
            omega
          · rw [e1, List.getElem?_append_right (by omega), show u'.length + 1 + i - u'.length = i + 1 by omega]
            simp
        obtain ⟨w, ew⟩ : ∃ w, v = w ++ [newPenalty zero minusInfinity true] := by
          rcases List.eq_nil_or_concat v with h0 | ⟨w, y, h0⟩
          · exact absurd h0 e2
          · rw [List.concat_eq_append] at h0
            refine ⟨w, ?_⟩
            rw [h0] at e1 ⊢
            rw [hN, ← List.cons_append, ← List.append_assoc] at e1
            have := (List.append_inj' e1 rfl).2
            rw [this]
        have hxb : x.kind ≠ .box := by
          intro hk
          rcases e3 with ⟨h, _⟩ | ⟨h, _⟩ <;> rw [hk] at h <;> cases h
        have htot : a.totals = sumAt N (N.length - 1) := by
          rw [e6, ← sumFrom_end N (x :: w) u' true (by rw [e1, ew]; simp) final_forced e4 (by
            intro y hy
            rcases List.mem_cons.mp hy with rfl | hy
            · exact ⟨hxb, h.free u' y v e1 e2⟩
            · refine ⟨hbx y (by rw [ew]; simp [hy]), ?_⟩
              obtain ⟨w1, w2, e8⟩ := List.append_of_mem hy
              exact h.free (u' ++ x :: w1) y (w2 ++ [newPenalty zero minusInfinity true]) (by rw [e1, ew, e8]; simp) (by simp))]
          unfold totAt sumFromNode
          congr 1
          conv => lhs; rw [e1, ew]
          simp
        rw [htot] at m1
        have hc := blank_class h hu.tolerance m1
        subst hc
        rcases origin_ends h hu.tolerance t2 e1 e2 e3 e4 hbx e7 with h9 | h9
        · rw [h9, m1] at t1; cases t1
        · rw [h9] at t1; cases t1

/-- The search. -/
theorem search_last (rt : Runtime) (hu : Costs o) {e : Bool} (h : Tally N e) (hlast : ∃ u, N = u ++ [newPenalty zero minusInfinity true])
    (hbox : BoxFrom N 0) (hm : ∀ n ∈ N, Mild n) (v u : List (Node F)) (act : List (BreakPoint F)) (hN : N = u ++ v)
    (hs : findStartNode N 0 ≤ u.length) (hlive : Live N act) (ha : BornL o N ideal [] act) (hv : v ≠ []) :
    ∃ res, breakLoop rt o N ideal u.getLast? v u.length (sumAt N u.length) act = .ok res ∧
      ∀ b ∈ res, ∃ p, b.previous.head? = some p ∧ BoxFrom N p.position := by
  induction v generalizing u act with
  | nil => exact absurd rfl hv
  | cons x v ih =>
    rw [breakLoop_cons rt o N ideal u v x hN hs]
    have h' : N = (u ++ [x]) ++ v := by rw [hN]; simp
    have hs' : findStartNode N 0 ≤ (u ++ [x]).length := by simp; omega
    by_cases hv' : v = []
    · subst hv'
      obtain ⟨w, hw⟩ := hlast
      have hx : x = newPenalty zero minusInfinity true := by
        rw [hN] at hw
        have := (List.append_inj' hw rfl).2
        simpa using this
      subst hx
      have e1 : Arith.eq (minusInfinity : F) infinity = false := by
        unfold minusInfinity infinity
        rw [eq_small (F := F) (-10000) 10000 (by decide) (by decide)]; rfl
      have hl : LegalAt u.getLast? (newPenalty zero minusInfinity true : Node F) := Or.inr ⟨rfl, e1⟩
      rw [if_pos hl]
      obtain ⟨res, r1, r2⟩ := step_last rt hu h hN hbox hlive ha (hm _ (by rw [hN]; simp)) (ideal := ideal)
      rw [r1, ok_bind]
      exact ⟨res, by simp [breakLoop], r2⟩
    · by_cases hl : LegalAt u.getLast? x
      · rw [if_pos hl]
        obtain ⟨res, r1, r2, r3⟩ := step_born rt hu h hlast hN hv' (hm _ (by rw [hN]; simp)) hl hs hlive ha
        rw [r1, ok_bind]
        exact ih (u ++ [x]) res h' hs' r2 r3 hv'
      · rw [if_neg hl, ok_bind]
        exact ih (u ++ [x]) act h' hs' hlive ha hv'

/-- **The last line.** There is a box on the last line. -/
theorem last_box (rt : Runtime) (hu : Costs o) {e : Bool} (h : Tally N e) {u : List (Node F)}
    (hN : N = u ++ [newPenalty zero minusInfinity true]) (hbox : BoxFrom N 0) (hm : ∀ n ∈ N, Mild n) {chain : List (Point F)}
    (hc : breakPoints rt o N ideal = .ok (some chain)) {r : List (Point F)} {p q : Point F} (hr : chain = r ++ [p, q]) :
    BoxFrom N p.position := by
  have hs : findStartNode N 0 < N.length := by
    have := start_before u 0
    rw [← hN] at this
    rw [show N.length = u.length + 1 by rw [hN]; simp]
    omega
  obtain ⟨w, hw⟩ : ∃ w, w = N.take (findStartNode N 0) := ⟨_, rfl⟩
  have hwl : w.length = findStartNode N 0 := by rw [hw]; simp; omega
  have hNw : N = w ++ N.drop (findStartNode N 0) := by rw [hw, List.take_append_drop]
  have hlive : Live N [rootPoint] := fun a ha => by
    rw [List.mem_singleton.mp ha]
    exact ⟨by show 0 < _; omega, rfl⟩
  obtain ⟨res, h1, h2⟩ := search_last rt hu h ⟨u, hN⟩ hbox hm (ideal := ideal) (N.drop (findStartNode N 0)) w [rootPoint] hNw (by omega)
    hlive ⟨Or.inl rfl, Or.inl ⟨rfl, rfl⟩, True.intro⟩ (by
      intro h0
      have := List.drop_eq_nil_iff.mp h0
      omega)
  obtain ⟨_, h1', h3, _⟩ := live_breakLoop rt hu (N := N) (ideal := ideal) (N.drop (findStartNode N 0))
    (fun n hn => hm n (List.mem_of_mem_drop hn)) w.getLast? w.length (by rw [hwl, List.length_drop]; omega) (sumAt N w.length)
    [rootPoint] hlive (by
      intro h0
      have := List.drop_eq_nil_iff.mp h0
      omega) (by rw [List.getLast?_drop, if_neg (by omega), hN]; simp)
  rw [h1] at h1'
  cases h1'
  have hprev : w.getLast? = if findStartNode N 0 = 0 then none else N[findStartNode N 0 - 1]? := by
    by_cases h0 : findStartNode N 0 = 0
    · rw [if_pos h0, hw, h0]; rfl
    · rw [if_neg h0, List.getLast?_eq_getElem?, hwl, hw, List.getElem?_take_of_lt (by omega)]
  have hsum : sumAt N w.length = Sums.zero := by
    unfold sumAt
    rw [hwl, List.drop_eq_nil_of_le (by simp)]
    rfl
  rw [hprev, hsum, hwl] at h1
  unfold breakPoints at hc
  simp only [h1, ok_bind, pure_eq_ok] at hc
  cases res with
  | nil => simp at hc
  | cons a res =>
    rw [if_pos (by simp)] at hc
    have hb : findBestBreak (a :: res) noBreak ∈ a :: res := by
      unfold findBestBreak
      rw [if_pos]
      · rcases best_mem res a with h | h
        · rw [h]; simp
        · exact List.mem_cons_of_mem _ h
      · show Arith.lt a.totalDemerits Arith.maxFloat = true
        rw [(h3 a (by simp)).2]
        exact Laws.zero_lt_max
    obtain ⟨b, hbe⟩ : ∃ b, b = findBestBreak (a :: res) noBreak := ⟨_, rfl⟩
    rw [← hbe] at hb hc
    obtain ⟨p', k1, k2⟩ := h2 b hb
    unfold reverseBreakPoints at hc
    cases hp : b.previous with
    | nil => rw [hp] at k1; cases k1
    | cons p'' ps =>
      rw [hp] at k1
      cases k1
      rw [hp, if_neg (by simp)] at hc
      injection hc with hc
      injection hc with hc
      rw [hr, List.reverse_cons, List.append_assoc] at hc
      have := (List.append_inj' hc (by simp)).2
      simp at this
      rw [← this.1]
      exact k2

end Verif.Proofs.LB
