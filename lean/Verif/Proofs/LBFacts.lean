import Verif.Proofs.LBNodes
import Verif.Proofs.LBChain

/-! # Facts on the nodes of a paragraph -/

set_option linter.unusedSectionVars false
set_option linter.unusedSimpArgs false

namespace Verif.Proofs.LB
open Verif.Go Verif.Model Verif.Model.LB Verif.Spec Verif.Spec.LB

variable {F : Type} [Arith F]

/-- What the proofs use of a line breaker: measures are integers, and the penalty for hyphens is not
infinite. -/
structure Setup (l : LineBreaker F) (m : Measure) : Prop where
  stretch : l.glueStretch = Arith.ofInt 6
  text : ∀ t, l.scale (l.measurer t) = Arith.ofInt (m.text t)
  text_nonneg : ∀ t, 0 ≤ m.text t
  space : l.spaceWidth = Arith.ofInt m.space
  space_nonneg : 0 ≤ m.space
  hyphen : l.hyphenWidth = Arith.ofInt m.hyphen
  hyphen_nonneg : 0 ≤ m.hyphen
  addHyphens : l.renderHyphens = m.addHyphens
  punct : l.punctuationPenalty = Arith.ofInt 400
  hard : l.hardHyphenPenalty = Arith.ofInt 200
  finite : Arith.eq l.hyphenPenalty infinity = false
  minus : Arith.eq l.hyphenPenalty minusInfinity = false

/-- The symbols of nodes. -/
def symsT (ts : List (TN F)) : List Sym := ts.filterMap TN.tag

omit [Arith F] in
theorem symsT_append (a b : List (TN F)) : symsT (a ++ b) = symsT a ++ symsT b := by simp [symsT]

omit [Arith F] in
theorem symsT_cons (a : TN F) (b : List (TN F)) : symsT (a :: b) = a.tag.toList ++ symsT b := by
  unfold symsT
  cases h : a.tag <;> simp [h]

/-- The stretch lost by a line that starts with a mark. -/
def openSt : List Sym → Int
  | .mark :: _ => 6
  | .hard :: _ => 6
  | _ => 0

/-- The penalty of a place where a line may end. -/
def penOf (l : LineBreaker F) : Sym → F
  | .mark => l.punctuationPenalty
  | .hard => l.hardHyphenPenalty
  | .soft => l.hyphenPenalty
  | _ => zero

/-- A node where a line may end: the last one, a penalty after a part, the glue or the penalty between
two words, and the glue before the last node. -/
inductive Cut (l : LineBreaker F) (m : Measure) (b : Int) (x : TN F) (v : List (TN F)) : Prop where
  | final : v = [] → x.tag = none → x.node.kind = .penalty → x.node.penalty = minusInfinity → x.w = 0 →
      b = 10000 → Cut l m b x v
  | pen (s : Sym) : x.tag = some s → s = .mark ∨ s = .hard ∨ s = .soft → x.node.kind = .penalty →
      x.node.penalty = penOf l s → x.w = endWidth m (some s) →
      b = (if s = .soft then if m.addHyphens then 6 else 0 else 6) → Cut l m b x v
  | gap (rest : List Sym) : x.tag = none → symsT v = .gap :: rest → x.w = 0 →
      (x.node.kind = .glue ∧ b = 0) ∨ (x.node.kind = .penalty ∧ x.node.penalty = zero ∧ b = 6) → Cut l m b x v
  | fin (y : TN F) : x.tag = none → v = [y] → y.tag = none → y.node.kind = .penalty → x.node.kind = .glue → x.w = 0 →
      b = 0 → Cut l m b x v

/-- Facts on a node: `prev` is the node before it, `b` the stretch before it, `v` the nodes after it. -/
structure Facts (l : LineBreaker F) (m : Measure) (prev : Option (Node F)) (b : Int) (x : TN F)
    (v : List (TN F)) : Prop where
  coh : x.node.sums = ⟨Arith.ofInt x.w, Arith.ofInt x.st, Arith.ofInt 0⟩
  w_nonneg : 0 ≤ x.w
  box : x.node.kind = .box → ∃ t k, x = boxT l m k t ∧ b = openSt (symsT v)
  nonbox : x.node.kind ≠ .box → ∀ t, x.tag ≠ some (.part t)
  glue : x.node.kind = .glue → (x.tag = some .gap ∧ x.w = m.space) ∨ (x.tag = none ∧ x.w = 0)
  pen : x.node.kind = .penalty → x.tag ≠ some .gap ∧ x.st = 0
  forced : x.node.isForcedBreak = true ↔ v = []
  last : v = [] → x.tag = none ∧ x.node = newPenalty zero minusInfinity true ∧ x.w = 0 ∧ b = 10000
  legal : LegalAt prev x.node → Cut l m b x v

/-- Facts that hold at each node. -/
def Along (P : Option (Node F) → Int → TN F → List (TN F) → Prop) :
    Option (Node F) → Int → List (TN F) → Prop
  | _, _, [] => True
  | prev, b, x :: v => P prev b x v ∧ Along P (some x.node) (b + x.st) v

/-- The stretch of nodes. -/
def sumSt (ts : List (TN F)) : Int := (ts.map TN.st).sum

omit [Arith F] in
theorem Along.split {P : Option (Node F) → Int → TN F → List (TN F) → Prop} (u : List (TN F)) {prev : Option (Node F)}
    {b : Int} {x : TN F} {v : List (TN F)} (h : Along P prev b (u ++ x :: v)) :
    P ((u.getLast?.map TN.node).or prev) (b + sumSt u) x v ∧
      Along P (some x.node) (b + sumSt u + x.st) v := by
  induction u generalizing prev b with
  | nil => simpa [Along, sumSt] using h
  | cons y u ih =>
    have h2 := ih h.2
    have e : b + y.st + sumSt u = b + sumSt (y :: u) := by simp [sumSt]; omega
    rw [e] at h2
    cases u with
    | nil => simpa using h2
    | cons z u =>
      have e2 : ((z :: u).getLast?.map TN.node).or (some y.node) = ((y :: z :: u).getLast?.map TN.node).or prev := by
        rw [List.getLast?_cons_cons]
        cases hc : (z :: u).getLast? with
        | none => simp at hc
        | some w => simp
      rw [e2] at h2
      exact h2

variable [Laws F]

theorem small (a : Int) (h : |a| ≤ 1000000) : |a| ≤ Laws.bound F := h.trans ((by decide : (1000000 : Int) ≤ 2 ^ 53).trans Laws.bound_large)

theorem eq_small (a b : Int) (ha : |a| ≤ 1000000) (hb : |b| ≤ 1000000) :
    Arith.eq (Arith.ofInt a : F) (Arith.ofInt b) = decide (a = b) :=
  Laws.eq_int a b (small a ha) (small b hb)

theorem neg_stretch {l : LineBreaker F} {m : Measure} (hs : Setup l m) : Arith.neg l.glueStretch = Arith.ofInt (-6) := by
  rw [hs.stretch, Laws.neg_int 6 (small 6 (by decide)) (by decide)]

section
variable {l : LineBreaker F} {m : Measure} (hs : Setup l m)
include hs

omit [Laws F] in
/-- A glue without symbol that is not after a box. -/
theorem facts_glue (prev : Option (Node F)) (b : Int) (s : F) (n : Int) (hn : s = Arith.ofInt n)
    (hp : prev.map Node.kind ≠ some .box) (v : List (TN F)) (hv : v ≠ []) :
    Facts l m prev b ⟨newGlue zero s zero, none, 0, n⟩ v where
  coh := by subst hn; rfl
  w_nonneg := by simp
  box := by intro h; cases h
  nonbox := by simp
  glue := by simp
  pen := by intro h; cases h
  forced := by simp [Node.isForcedBreak, newGlue, hv]
  last := fun h => absurd h hv
  legal := by
    rintro (⟨_, h⟩ | ⟨h, _⟩)
    · exact absurd h hp
    · cases h

/-- An infinite penalty. -/
theorem facts_penInf (prev : Option (Node F)) (b : Int) (v : List (TN F)) (hv : v ≠ []) :
    Facts l m prev b ⟨newPenalty zero infinity false, none, 0, 0⟩ v where
  coh := rfl
  w_nonneg := by simp
  box := by intro h; cases h
  nonbox := by simp
  glue := by intro h; cases h
  pen := by simp
  forced := by
    simp [Node.isForcedBreak, newPenalty, hv, infinity, minusInfinity,
      eq_small (F := F) 10000 (-10000) (by decide) (by decide)]
  last := fun h => absurd h hv
  legal := by
    rintro (⟨h, _⟩ | ⟨_, h⟩)
    · cases h
    · simp [newPenalty, infinity, eq_small (F := F) 10000 10000 (by decide) (by decide)] at h

omit [Laws F] in
theorem facts_box (prev : Option (Node F)) (b : Int) (k : Nat) (t : List Rune) (v : List (TN F)) (hv : v ≠ [])
    (hb : b = openSt (symsT v)) : Facts l m prev b (boxT l m k t) v where
  coh := by simp only [boxT, newBox, hs.text]; rfl
  w_nonneg := hs.text_nonneg t
  box := fun _ => ⟨t, k, rfl, hb⟩
  nonbox := by intro h; exact absurd rfl h
  glue := by intro h; cases h
  pen := by intro h; cases h
  forced := by simp [Node.isForcedBreak, boxT, newBox, hv]
  last := fun h => absurd h hv
  legal := by
    rintro (⟨h, _⟩ | ⟨h, _⟩) <;> cases h

theorem penOf_minus (s : Sym) (h : s = .mark ∨ s = .hard ∨ s = .soft) :
    Arith.eq (penOf l s) minusInfinity = false := by
  rcases h with rfl | rfl | rfl
  · simp [penOf, hs.punct, minusInfinity, eq_small (F := F) 400 (-10000) (by decide) (by decide)]
  · simp [penOf, hs.hard, minusInfinity, eq_small (F := F) 200 (-10000) (by decide) (by decide)]
  · exact hs.minus

/-- A penalty where a line may end. -/
theorem facts_pen (prev : Option (Node F)) (b : Int) (s : Sym) (h : s = .mark ∨ s = .hard ∨ s = .soft) (w : F) (n : Int)
    (hw : w = Arith.ofInt n) (hn : n = endWidth m (some s)) (v : List (TN F)) (hv : v ≠ [])
    (hb : b = (if s = .soft then if m.addHyphens then 6 else 0 else 6)) :
    Facts l m prev b ⟨newPenalty w (penOf l s) true, some s, n, 0⟩ v where
  coh := by subst hw; rfl
  w_nonneg := by
    simp only [hn]
    rcases h with rfl | rfl | rfl <;> simp [endWidth]
    have := hs.hyphen_nonneg
    split <;> omega
  box := by intro h; cases h
  nonbox := by intro _ t; rcases h with rfl | rfl | rfl <;> simp
  glue := by intro h; cases h
  pen := by rcases h with rfl | rfl | rfl <;> simp
  forced := by simp [Node.isForcedBreak, newPenalty, hv, penOf_minus hs s h]
  last := fun h => absurd h hv
  legal := fun _ => Cut.pen s rfl h rfl rfl hn hb

/-- The first glue between two words. -/
theorem facts_gap1 (prev : Option (Node F)) (v : List (TN F)) (rest : List Sym) (hr : symsT v = .gap :: rest) :
    Facts l m prev 0 ⟨newGlue zero l.glueStretch zero, none, 0, 6⟩ v where
  coh := by simp only [newGlue, hs.stretch]; rfl
  w_nonneg := by simp
  box := by intro h; cases h
  nonbox := by simp
  glue := by simp
  pen := by intro h; cases h
  forced := by
    have : v ≠ [] := by rintro rfl; simp [symsT] at hr
    simp [Node.isForcedBreak, newGlue, this]
  last := by rintro rfl; simp [symsT] at hr
  legal := fun _ => Cut.gap rest rfl hr rfl (Or.inl ⟨rfl, rfl⟩)

/-- The penalty between two words. -/
theorem facts_gap2 (prev : Option (Node F)) (v : List (TN F)) (rest : List Sym) (hr : symsT v = .gap :: rest) :
    Facts l m prev 6 ⟨newPenalty zero zero false, none, 0, 0⟩ v where
  coh := rfl
  w_nonneg := by simp
  box := by intro h; cases h
  nonbox := by simp
  glue := by intro h; cases h
  pen := by simp
  forced := by
    have : v ≠ [] := by rintro rfl; simp [symsT] at hr
    simp [Node.isForcedBreak, newPenalty, this, zero, minusInfinity,
      eq_small (F := F) 0 (-10000) (by decide) (by decide)]
  last := by rintro rfl; simp [symsT] at hr
  legal := fun _ => Cut.gap rest rfl hr rfl (Or.inr ⟨rfl, rfl, rfl⟩)

/-- The space between two words. -/
theorem facts_gap3 (prev : Option (Node F)) (b : Int) (hp : prev.map Node.kind ≠ some .box) (v : List (TN F)) (hv : v ≠ []) :
    Facts l m prev b ⟨newGlue l.spaceWidth (Arith.neg l.glueStretch) zero, some .gap, m.space, -6⟩ v where
  coh := by simp only [newGlue, neg_stretch hs, hs.space]; rfl
  w_nonneg := hs.space_nonneg
  box := by intro h; cases h
  nonbox := by simp
  glue := by simp
  pen := by intro h; cases h
  forced := by simp [Node.isForcedBreak, newGlue, hv]
  last := fun h => absurd h hv
  legal := by
    rintro (⟨_, h⟩ | ⟨h, _⟩)
    · exact absurd h hp
    · cases h

omit [Laws F] in
/-- The last glue. -/
theorem facts_fin1 (prev : Option (Node F)) (y : TN F) (h1 : y.tag = none) (h2 : y.node.kind = .penalty) :
    Facts l m prev 0 ⟨newGlue zero infinity zero, none, 0, 10000⟩ [y] where
  coh := rfl
  w_nonneg := by simp
  box := by intro h; cases h
  nonbox := by simp
  glue := by simp
  pen := by intro h; cases h
  forced := by simp [Node.isForcedBreak, newGlue]
  last := by simp
  legal := fun _ => Cut.fin y rfl rfl h1 h2 rfl rfl rfl

/-- The last node. -/
theorem facts_fin2 (prev : Option (Node F)) :
    Facts l m prev 10000 ⟨newPenalty zero minusInfinity true, none, 0, 0⟩ [] where
  coh := rfl
  w_nonneg := by simp
  box := by intro h; cases h
  nonbox := by simp
  glue := by intro h; cases h
  pen := by simp
  forced := by
    simp [Node.isForcedBreak, newPenalty, minusInfinity, eq_small (F := F) (-10000) (-10000) (by decide) (by decide)]
  last := fun _ => ⟨rfl, rfl, rfl, rfl⟩
  legal := fun _ => Cut.final rfl rfl rfl rfl rfl rfl

omit [Laws F] hs in
theorem symsT_tns (k : Nat) (bs : List Block) : symsT (tns l m k bs) = syms bs := by
  induction bs generalizing k with
  | nil => rfl
  | cons b rest ih =>
    simp only [tns, symsT_append, ih]
    have : symsT (b.tn l m k) = b.syms := by
      cases b with
      | soft => simp only [Block.tn, softT]; split <;> rfl
      | _ => rfl
    rw [this]; rfl

omit [Laws F] hs in
theorem symsT_parNodes (k : Nat) (bs : List Block) : symsT (parNodes l m k bs) = syms bs := by
  unfold parNodes
  rw [symsT_append, symsT_tns]
  simp [symsT, finT]

omit [Laws F] hs in
theorem openSt_parNodes (k : Nat) (bs : List Block) : openSt (symsT (parNodes l m k bs)) = 0 := by
  rw [symsT_parNodes]
  cases bs with
  | nil => rfl
  | cons b rest => cases b <;> rfl

omit [Laws F] hs in
theorem parNodes_ne (k : Nat) (bs : List Block) : parNodes l m k bs ≠ [] := by
  simp [parNodes, finT]

theorem along_mark (prev : Option (Node F)) (k : Nat) (t : List Rune) (s : Sym) (h : s = .mark ∨ s = .hard)
    (v : List (TN F)) (hv : v ≠ [])
    (hr : ∀ prev, Along (Facts l m) prev 0 v) : Along (Facts l m) prev 0 (markT l m k t (penOf l s) s ++ v) := by
  have hsoft : s ≠ .soft := by rcases h with rfl | rfl <;> simp
  refine ⟨facts_penInf hs _ _ _ (by simp), facts_glue hs _ _ _ _ hs.stretch (by simp [newPenalty]) _ (by simp),
    facts_box hs _ _ _ _ _ (by simp) ?_, ?_, facts_glue hs _ _ _ _ (neg_stretch hs) (by simp [newPenalty]) _ (by simpa using hv), ?_⟩
  · simp only [symsT_cons, Option.toList, List.cons_append, List.nil_append]
    rcases h with rfl | rfl <;> rfl
  · refine facts_pen hs _ _ s (by tauto) _ _ rfl ?_ _ (by simp) ?_
    · rcases h with rfl | rfl <;> rfl
    · rw [if_neg hsoft]; rfl
  · exact hr _

theorem along_parNodes (prev : Option (Node F)) (k : Nat) (bs : List Block) :
    Along (Facts l m) prev 0 (parNodes l m k bs) := by
  induction bs generalizing prev k with
  | nil =>
    refine ⟨facts_fin1 hs _ _ rfl rfl, ?_, trivial⟩
    have := facts_fin2 hs (l := l) (m := m) (some (newGlue zero infinity zero))
    simpa using this
  | cons b rest ih =>
    have e : parNodes l m k (b :: rest) = b.tn l m k ++ parNodes l m (k + b.text.length) rest := by
      simp [parNodes, tns]
    rw [e]
    have hne := parNodes_ne (l := l) (m := m) (k + b.text.length) rest
    have ih' := fun prev => ih prev (k + b.text.length)
    cases b with
    | box t =>
      refine ⟨facts_box hs _ _ _ _ _ (by simpa using hne) ?_, ?_⟩
      · simp [openSt_parNodes]
      · exact ih' _
    | mark t => exact along_mark hs prev k t .mark (Or.inl rfl) _ hne ih'
    | hard t => exact along_mark hs prev k t .hard (Or.inr rfl) _ hne ih'
    | soft =>
      simp only [Block.tn, softT]
      have hadd := hs.addHyphens
      cases hr : l.renderHyphens with
      | true =>
        rw [hr] at hadd
        simp only [if_true]
        refine ⟨facts_penInf hs _ _ _ (by simp), facts_glue hs _ _ _ _ hs.stretch (by simp [newPenalty]) _ (by simp),
          facts_pen hs _ _ .soft (by simp) _ _ hs.hyphen (by simp [endWidth, ← hadd]) _ (by simp) (by simp [← hadd]),
          facts_glue hs _ _ _ _ (neg_stretch hs) (by simp [newPenalty]) _ (by simpa using hne), ih' _⟩
      | false =>
        rw [hr] at hadd
        simp only [Bool.false_eq_true, if_false]
        exact ⟨facts_pen hs _ _ .soft (by simp) _ _ rfl (by simp [endWidth, ← hadd]) _ (by simpa using hne) (by simp [← hadd]), ih' _⟩
    | gap =>
      refine ⟨facts_gap1 hs _ _ (symsT (parNodes l m (k + Block.gap.text.length) rest)) ?_,
        facts_gap2 hs _ _ (symsT (parNodes l m (k + Block.gap.text.length) rest)) ?_,
        facts_gap3 hs _ _ (by simp [newPenalty]) _ (by simpa using hne), ih' _⟩
      · simp [symsT_cons]
      · simp [symsT_cons]

end

end Verif.Proofs.LB
