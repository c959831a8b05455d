import Verif.Proofs.LBPenalty
import Verif.Proofs.LBUsual

/-! # The penalty of hyphens, for any words and any widths -/

set_option linter.unusedSectionVars false
set_option linter.unusedSimpArgs false

namespace Verif.Proofs.LB
open Verif.Go Verif.Model Verif.Model.LB Verif.Spec Verif.Spec.LB

variable {F : Type} [Arith F]

/-- A line breaker with another penalty of hyphens (`WithHyphenPenalty` sets the two fields). -/
def priced (l : LineBreaker F) (x : F) : LineBreaker F := { l with hyphenPenalty := x, demeritsFlagged := x }

/-- A penalty that is a number between 0 and infinity (excluded), and is not one of the other penalties if hyphens are
rendered. -/
structure Fair (render : Bool) (x : F) : Prop where
  within : Within x 10000
  finite : Arith.eq x infinity = false
  minus : Arith.eq x minusInfinity = false
  own : render = true → Arith.eq zero x = false ∧ Arith.eq (Arith.ofInt 200) x = false ∧
    Arith.eq (Arith.ofInt 400) x = false ∧ Arith.eq x x = true

/-- A penalty that is not negative, or that forces a break. -/
def Mild (n : Node F) : Prop := n.kind = .penalty → n.penalty = minusInfinity ∨ Within n.penalty 10000

/-- Nodes for two penalties of hyphens. -/
def PairN (o o' : Options F) (a b : Node F) : Prop := SimN o o' a b ∧ Mild a ∧ Mild b

/-- Results for two penalties of hyphens. -/
def PairR {α : Type} (o o' : Options F) (r r' : Res (List (Node F) × α)) : Prop :=
  (∃ e, r = .error e ∧ r' = .error e) ∨ ∃ n n' a, r = .ok (n, a) ∧ r' = .ok (n', a) ∧ List.Forall₂ (PairN o o') n n'

section
variable {o o' : Options F}

theorem pair_seq {α β : Type} {r r' : Res (List (Node F) × α)} {f f' : α → Res (List (Node F) × β)} (h : PairR o o' r r')
    (g : ∀ a, PairR o o' (f a) (f' a)) :
    PairR o o' (do let p ← r; let q ← f p.2; return (p.1 ++ q.1, q.2)) (do let p ← r'; let q ← f' p.2; return (p.1 ++ q.1, q.2)) := by
  rcases h with ⟨e, h1, h2⟩ | ⟨n, n', a, h1, h2, h3⟩
  · rw [h1, h2]; exact Or.inl ⟨e, rfl, rfl⟩
  · rw [h1, h2]
    rcases g a with ⟨e, k1, k2⟩ | ⟨m, m', b, k1, k2, k3⟩
    · simp only [ok_bind, k1, k2]; exact Or.inl ⟨e, rfl, rfl⟩
    · simp only [ok_bind, k1, k2]; exact Or.inr ⟨_, _, _, rfl, rfl, List.rel_append h3 k3⟩

theorem pair_bind {α β : Type} {r : Res α} {f f' : α → Res (List (Node F) × β)} (g : ∀ a, PairR o o' (f a) (f' a)) :
    PairR o o' (r >>= f) (r >>= f') := by
  cases r with
  | error e => exact Or.inl ⟨e, rfl, rfl⟩
  | ok a => exact g a

end

variable [Laws F] {l : LineBreaker F} {x : F}

section
variable (hl : Fair l.renderHyphens l.hyphenPenalty) (hx : Fair l.renderHyphens x)
  (hp : l.punctuationPenalty = Arith.ofInt 400) (hh : l.hardHyphenPenalty = Arith.ofInt 200)
include hl hx

theorem pair_plain (n : Node F) (h : n.kind ≠ .penalty) : PairN l.toOptions (priced l x).toOptions n n :=
  ⟨.same (fun e => absurd e h), fun e => absurd e h, fun e => absurd e h⟩

theorem pair_fixed (w p : F) (b : Bool) (h : p = minusInfinity ∨ Within p 10000)
    (h1 : l.renderHyphens = true → Arith.eq p l.hyphenPenalty = false ∧ Arith.eq p x = false) :
    PairN l.toOptions (priced l x).toOptions (newPenalty w p b) (newPenalty w p b) :=
  ⟨.same (fun _ e => by
    show Arith.eq p l.hyphenPenalty = Arith.eq p x
    rw [(h1 e).1, (h1 e).2]), fun _ => h, fun _ => h⟩

theorem pair_inf (w : F) (b : Bool) : PairN l.toOptions (priced l x).toOptions (newPenalty w infinity b) (newPenalty w infinity b) :=
  pair_fixed hl hx w _ b (Or.inr (within_int _ _ (by decide) (by decide) (by decide)))
    (fun _ => ⟨by rw [Laws.eq_comm]; exact hl.finite, by rw [Laws.eq_comm]; exact hx.finite⟩)

theorem pair_soft (w : F) (b : Bool) :
    PairN l.toOptions (priced l x).toOptions (newPenalty w l.hyphenPenalty b) (newPenalty w x b) := by
  refine ⟨⟨rfl, rfl, rfl, rfl, ?_, ?_, ?_⟩, fun _ => Or.inr hl.within, fun _ => Or.inr hx.within⟩
  · show Arith.eq l.hyphenPenalty infinity = Arith.eq x infinity
    rw [hl.finite, hx.finite]
  · show Arith.eq l.hyphenPenalty minusInfinity = Arith.eq x minusInfinity
    rw [hl.minus, hx.minus]
  · intro _ e
    show Arith.eq l.hyphenPenalty l.hyphenPenalty = Arith.eq x x
    rw [(hl.own e).2.2.2, (hx.own e).2.2.2]

theorem pair_glue (a b c : F) : PairN l.toOptions (priced l x).toOptions (newGlue a b c) (newGlue a b c) :=
  pair_plain hl hx _ (by simp [newGlue])

theorem pair_box (s : TokState) (t : List Rune) : PairN l.toOptions (priced l x).toOptions (s.box l t) (s.box (priced l x) t) :=
  pair_plain hl hx (s.box l t) (by simp [TokState.box, newBox])

theorem pair_mark (p : F) (h : Within p 10000)
    (h1 : l.renderHyphens = true → Arith.eq p l.hyphenPenalty = false ∧ Arith.eq p x = false) (t : List Rune) (s : TokState) :
    PairR l.toOptions (priced l x).toOptions (.ok (markNodes l p t s)) (.ok (markNodes (priced l x) p t s)) :=
  Or.inr ⟨_, _, _, rfl, rfl, .cons (pair_inf hl hx _ _) (.cons (pair_glue hl hx _ _ _) (.cons (pair_box hl hx _ _)
    (.cons (pair_fixed hl hx _ _ _ (Or.inr h) h1) (.cons (pair_glue hl hx _ _ _) .nil))))⟩

theorem pair_hyphen : List.Forall₂ (PairN l.toOptions (priced l x).toOptions) (pushHyphen l) (pushHyphen (priced l x)) := by
  unfold pushHyphen
  show List.Forall₂ _ _ (if l.renderHyphens then _ else _)
  split
  · exact .cons (pair_inf hl hx _ _) (.cons (pair_glue hl hx _ _ _) (.cons (pair_soft hl hx _ _) (.cons (pair_glue hl hx _ _ _) .nil)))
  · exact .cons (pair_soft hl hx _ _) .nil

theorem pair_softLoop (parts : List (List Rune)) (s : TokState) :
    List.Forall₂ (PairN l.toOptions (priced l x).toOptions) (softLoop l parts s).1 (softLoop (priced l x) parts s).1 ∧
    (softLoop (priced l x) parts s).2 = (softLoop l parts s).2 := by
  induction parts generalizing s with
  | nil => exact ⟨.nil, rfl⟩
  | cons p ps ih =>
    unfold softLoop
    exact ⟨.cons (pair_box hl hx _ _) (List.rel_append (pair_hyphen hl hx) (ih _).1), (ih _).2⟩

include hp hh

theorem pair_wordNodes (word : List Rune) (s : TokState) :
    PairR l.toOptions (priced l x).toOptions (wordNodes l word s) (wordNodes (priced l x) word s) := by
  unfold wordNodes
  split
  · exact pair_mark hl hx _ (by rw [hh]; exact within_int _ _ (by decide) (by decide) (by decide))
      (fun e => by rw [hh]; exact ⟨(hl.own e).2.1, (hx.own e).2.1⟩) _ _
  · refine pair_bind (fun hyph => pair_bind (fun parts => ?_))
    have h := pair_softLoop hl hx parts s
    simp only [h.2]
    refine pair_bind (fun last => Or.inr ⟨_, _, _, rfl, rfl, ?_⟩)
    exact List.rel_append h.1 (.cons (pair_box hl hx _ _) .nil)

theorem pair_wordsLoop (words : List (List Rune)) (s : TokState) :
    PairR l.toOptions (priced l x).toOptions (wordsLoop l words s) (wordsLoop (priced l x) words s) := by
  induction words generalizing s with
  | nil => exact Or.inr ⟨_, _, _, rfl, rfl, .nil⟩
  | cons w ws ih =>
    unfold wordsLoop
    exact pair_seq (pair_wordNodes hl hx hp hh w s) ih

theorem pair_partNodes (env : Env) (part : List Rune) (s : TokState) :
    PairR l.toOptions (priced l x).toOptions (partNodes env l part s) (partNodes env (priced l x) part s) := by
  unfold partNodes
  show PairR _ _ _ (if isPunctuation env part then _ else if !l.wordBreak || decide ((part.length : Int) ≤ l.minHyphenate) then _ else _)
  split
  · exact pair_mark hl hx _ (by rw [hp]; exact within_int _ _ (by decide) (by decide) (by decide))
      (fun e => by rw [hp]; exact ⟨(hl.own e).2.2.1, (hx.own e).2.2.1⟩) _ _
  · split
    · exact Or.inr ⟨_, _, _, rfl, rfl, .cons (pair_box hl hx _ _) .nil⟩
    · exact pair_bind (fun words => pair_wordsLoop hl hx hp hh words s)

theorem pair_partsLoop (env : Env) (parts : List (List Rune)) (s : TokState) :
    PairR l.toOptions (priced l x).toOptions (partsLoop env l parts s) (partsLoop env (priced l x) parts s) := by
  induction parts generalizing s with
  | nil => exact Or.inr ⟨_, _, _, rfl, rfl, .nil⟩
  | cons w ws ih =>
    unfold partsLoop
    exact pair_seq (pair_partNodes hl hx hp hh env w s) ih

theorem pair_strippedLoop (env : Env) (mem : List Rune) (toks : List Ansi.StrippedToken) (attrs : AState) :
    PairR l.toOptions (priced l x).toOptions (strippedLoop env l mem toks attrs) (strippedLoop env (priced l x) mem toks attrs) := by
  induction toks generalizing attrs with
  | nil => exact Or.inr ⟨_, _, _, rfl, rfl, .nil⟩
  | cons t ts ih =>
    unfold strippedLoop
    exact pair_bind (fun parts => pair_seq (f := fun s => strippedLoop env l mem ts s.close)
      (f' := fun s => strippedLoop env (priced l x) mem ts s.close) (pair_partsLoop hl hx hp hh env parts _) (fun s => ih s.close))

theorem pair_boxNodes (rt : Runtime) (env : Env) (token : List Rune) (attrs : AState) :
    PairR l.toOptions (priced l x).toOptions (boxNodes rt env l token attrs) (boxNodes rt env (priced l x) token attrs) := by
  unfold boxNodes
  exact pair_bind (fun r => pair_strippedLoop hl hx hp hh env r.2 r.1 attrs)

theorem pair_tokensLoop (rt : Runtime) (env : Env) (tokens : List (List Rune)) (attrs : AState) :
    PairR l.toOptions (priced l x).toOptions (tokensLoop rt env l tokens attrs) (tokensLoop rt env (priced l x) tokens attrs) := by
  induction tokens generalizing attrs with
  | nil => exact Or.inr ⟨_, _, _, rfl, rfl, .nil⟩
  | cons t ts ih =>
    cases ts with
    | nil =>
      unfold tokensLoop
      rcases pair_boxNodes hl hx hp hh rt env t attrs with ⟨e, h1, h2⟩ | ⟨n, n', a, h1, h2, h3⟩
      · rw [h1, h2]; exact Or.inl ⟨e, rfl, rfl⟩
      · rw [h1, h2]
        refine Or.inr ⟨_, _, _, rfl, rfl, List.rel_append h3 ?_⟩
        exact .cons (pair_glue hl hx _ _ _) (.cons (pair_fixed hl hx _ _ _ (Or.inl rfl)
          (fun _ => ⟨by rw [Laws.eq_comm]; exact hl.minus, by rw [Laws.eq_comm]; exact hx.minus⟩)) .nil)
    | cons t' ts' =>
      have hgap : List.Forall₂ (PairN l.toOptions (priced l x).toOptions) (gapNodes l) (gapNodes (priced l x)) :=
        .cons (pair_glue hl hx _ _ _) (.cons (pair_fixed hl hx _ _ _ (Or.inr (within_int _ _ (by decide) (by decide) (by decide)))
          (fun e => ⟨(hl.own e).1, (hx.own e).1⟩)) (.cons (pair_glue hl hx _ _ _) .nil))
      rw [tokensLoop, tokensLoop]
      · rcases pair_boxNodes hl hx hp hh rt env t attrs with ⟨e, h1, h2⟩ | ⟨n, n', a, h1, h2, h3⟩
        · rw [h1, h2]; exact Or.inl ⟨e, rfl, rfl⟩
        · rw [h1, h2]
          simp only [ok_bind]
          rcases ih a with ⟨e, k1, k2⟩ | ⟨m, m', b, k1, k2, k3⟩
          · rw [k1, k2]; exact Or.inl ⟨e, rfl, rfl⟩
          · rw [k1, k2]
            exact Or.inr ⟨_, _, _, rfl, rfl, List.rel_append (List.rel_append h3 hgap) k3⟩
      · simp
      · simp

end

/-! ## The main loop -/

/-- What the demerits of a line are compared with does not depend on their value. -/
def Cheap (o : Options F) (d : F) : Prop :=
  Arith.lt d Arith.maxFloat = true ∧ Arith.lt d zero = false ∧ Arith.lt (Arith.add d o.demeritsFitness) zero = false

/-- The options that the demerits depend on. -/
structure Costs (o : Options F) : Prop where
  line : o.demeritsLine = Arith.ofInt 10
  badness : o.badness = Arith.ofInt 100
  fitness : o.demeritsFitness = Arith.ofInt 200
  flagged : Within o.demeritsFlagged 10000
  tolerance : Arith.le o.tolerance (Arith.ofInt 50) = true

theorem costs_ratio {o : Options F} (hu : Costs o) (node : Node F) (ratio : F) (hn : Mild node)
    (h1 : Arith.le (Arith.ofInt (-1)) ratio = true) (h2 : Arith.le ratio o.tolerance = true) :
    Within (demeritsForRatio o node ratio) (12510010 ^ 2) := by
  have hB := Laws.bound_large (F := F)
  have big : ∀ a : Int, 0 ≤ a → a ≤ 2 ^ 53 → |a| ≤ Laws.bound F := by
    intro a h1 h2; rw [abs_of_nonneg h1]; omega
  have habs : Within (Arith.abs ratio) 50 := by
    refine Laws.abs_within _ _ ?_ ?_ (by decide)
    · refine Laws.le_trans _ _ _ ?_ h1
      rw [Laws.le_int _ _ (small _ (by decide)) (small _ (by decide))]; rfl
    · exact Laws.le_trans _ _ _ h2 hu.tolerance
  have hcube := Laws.cube_within _ _ habs (by decide)
  have hmul := Laws.mul_within _ _ _ _ (within_int (F := F) 100 100 (by decide) (by decide) (by decide)) hcube (by decide) (by decide) (by decide)
  have hbad := Laws.add_within _ _ _ _ (within_int (F := F) 10 10 (by decide) (by decide) (by decide)) hmul (by decide)
  obtain ⟨bad, hbd⟩ : ∃ bad, bad = Arith.add (Arith.ofInt 10 : F) (Arith.mul (Arith.ofInt 100) (Arith.pow (Arith.abs ratio) 3)) := ⟨_, rfl⟩
  rw [← hbd] at hbad
  have hb2 : Within bad 12510010 := within_mono hbad (by decide) (big _ (by decide) (by decide)) (big _ (by decide) (by decide))
  have hsq : Within (Arith.pow bad 2) (12510010 ^ 2) := Laws.square_within _ _ hb2 (by decide)
  have hpen : ∀ p : F, Within p 10000 → Within (Arith.pow (Arith.add bad p) 2) (12510010 ^ 2) := by
    intro p hp
    exact Laws.square_within _ _ (Laws.add_within _ _ _ _ hbad hp (by decide)) (by decide)
  unfold demeritsForRatio
  simp only [hu.line, hu.badness, ← hbd]
  by_cases hk : node.kind = .penalty
  · rcases hn hk with hp | hpw
    · rw [if_neg, if_neg]
      · exact hsq
      · simp [hp, minusInfinity, eq_small (F := F) (-10000) (-10000) (by decide) (by decide)]
      · rw [hp]
        simp [zero, minusInfinity, Laws.lt_int (F := F) 0 (-10000) (small _ (by decide)) (small _ (by decide))]
    · by_cases hlt : Arith.lt zero node.penalty = true
      · rw [if_pos ⟨hk, hlt⟩]
        exact hpen _ hpw
      · rw [if_neg (by simp [hlt])]
        split
        · exact Laws.sub_zero_square _ _ _ _ hsq hpw (by simpa [zero] using hlt)
        · exact hsq
  · rw [if_neg (by simp [hk]), if_neg (by simp [hk])]
    exact hsq

/-- The demerits of an acceptable line. -/
theorem costs_cheap {o : Options F} (hu : Costs o) {nodes : List (Node F)} {a : BreakPoint F} (h0 : a.totalDemerits = zero)
    {node previous : Node F} (hix : index nodes (a.position : Int) = .ok previous) (ratio : F) (hn : Mild node)
    (h1 : Arith.le (Arith.ofInt (-1)) ratio = true) (h2 : Arith.le ratio o.tolerance = true) :
    ∃ d, demeritsAndClass o nodes a node ratio = .ok (d, newFitnessClass ratio) ∧ Cheap o d := by
  have hw := costs_ratio hu node ratio hn h1 h2
  have hB := Laws.bound_large (F := F)
  have big : ∀ a : Int, 0 ≤ a → a ≤ 2 ^ 53 → |a| ≤ Laws.bound F := by
    intro a h1 h2; rw [abs_of_nonneg h1]; omega
  unfold demeritsAndClass
  rw [hix]
  simp only [ok_bind, pure_eq_ok, Except.ok.injEq, h0]
  refine ⟨_, rfl, ?_⟩
  obtain ⟨d1, hd1⟩ : ∃ d1, d1 = (if node.kind = .penalty ∧ node.flagged = true ∧ previous.kind = .penalty ∧
    previous.flagged = true then Arith.add (demeritsForRatio o node ratio) o.demeritsFlagged
    else demeritsForRatio o node ratio) := ⟨_, rfl⟩
  have hw1 : Within d1 (12510010 ^ 2 + 10000) := by
    rw [hd1]
    split
    · exact Laws.add_within _ _ _ _ hw hu.flagged (by decide)
    · exact within_mono hw (by decide) (big _ (by decide) (by decide)) (big _ (by decide) (by decide))
  obtain ⟨d2, hd2⟩ : ∃ d2, d2 = (if (newFitnessClass ratio).isAwayFrom a.fitness = true then
    Arith.add d1 o.demeritsFitness else d1) := ⟨_, rfl⟩
  have hfit : Within o.demeritsFitness 200 := by rw [hu.fitness]; exact within_int _ _ (by decide) (by decide) (by decide)
  have hw2 : Within d2 (12510010 ^ 2 + 10000 + 200) := by
    rw [hd2]
    split
    · exact Laws.add_within _ _ _ _ hw1 hfit (by decide)
    · exact within_mono hw1 (by decide) (big _ (by decide) (by decide)) (big _ (by decide) (by decide))
  rw [← hd1, ← hd2]
  have hw3 : Within (Arith.add d2 (zero : F)) (12510010 ^ 2 + 10000 + 200 + 0) :=
    Laws.add_within _ _ _ _ hw2 (within_int 0 0 (by decide) (by decide) (by decide)) (by decide)
  exact ⟨Laws.within_lt_max _ _ hw3 (by decide), within_not_neg hw3,
    within_not_neg (Laws.add_within _ _ _ _ hw3 hfit (by decide))⟩

/-- Two values of the lowest demerits that are compared with the same results. -/
def Even (o o' : Options F) (d d' : F) : Prop :=
  (d = Arith.maxFloat ∧ d' = Arith.maxFloat) ∨ (Cheap o d ∧ Cheap o' d')

theorem even_min {o o' : Options F} {a a' d d' : F} (h : Even o o' a a') (hd : Cheap o d) (hd' : Cheap o' d') :
    Even o o' (minf a d) (minf a' d') := by
  refine Or.inr ?_
  have one : ∀ {o : Options F} {a d : F}, a = Arith.maxFloat ∨ Cheap o a → Cheap o d → Cheap o (minf a d) := by
    intro o a d ha hd
    unfold minf
    split
    · rename_i hlt
      rcases ha with rfl | ha
      · have := Laws.lt_asymm _ _ hd.1
        rw [hlt] at this; cases this
      · exact ha
    · exact hd
  rcases h with ⟨h1, h2⟩ | ⟨h1, h2⟩
  · exact ⟨one (Or.inl h1) hd, one (Or.inl h2) hd'⟩
  · exact ⟨one (Or.inr h1) hd, one (Or.inr h2) hd'⟩

/-- A candidate: none yet, or a break point with no demerits. -/
def NoCost (c : Candidates F) : Prop :=
  ∀ k, (c k).totalDemerits = Arith.maxFloat ∨ (c k).totalDemerits = zero

theorem noCost_default : NoCost (defaultCandidates : Candidates F) := fun _ => Or.inl rfl

theorem noCost_set {c : Candidates F} (h : NoCost c) (k : Class) {a : BreakPoint F} (ha : a.totalDemerits = zero) : NoCost (c.set k a) := by
  intro j
  unfold Candidates.set
  split
  · exact Or.inr ha
  · exact h j

theorem not_max_zero : Arith.le (Arith.maxFloat : F) zero = false := Laws.le_of_lt _ _ Laws.zero_lt_max

theorem even_insert {o o' : Options F} {d d' : F} (h : Cheap o d ∧ Cheap o' d') {c : Candidates F} (hc : NoCost c) (index : Nat) (sum : Sums F)
    (before : Bool) (ks : List Class) :
    insertLoop o index d c sum before ks = insertLoop o' index d' c sum before ks ∧
    ∀ b ∈ insertLoop o index d c sum before ks, b.totalDemerits = zero := by
  induction ks with
  | nil => exact ⟨rfl, fun _ h => by cases h⟩
  | cons k ks ih =>
    unfold insertLoop
    simp only
    rcases hc k with e | e
    · rw [e, Laws.le_max]; simpa using ih
    · rw [e, not_max_zero, h.1.2.2, h.2.2.2]
      simp only [Bool.or_self, Bool.false_eq_true, if_false]
      split
      · exact ⟨rfl, fun b hb => by rw [List.mem_singleton.mp hb]; exact e⟩
      · refine ⟨by rw [ih.1], fun b hb => ?_⟩
        rcases List.mem_cons.mp hb with rfl | hb
        · exact e
        · exact ih.2 b hb

theorem index_pair {o o' : Options F} {N N' : List (Node F)} (h : List.Forall₂ (PairN o o') N N') (i : Int) :
    (∃ e, index N i = .error e ∧ index N' i = .error e) ∨ ∃ a b, index N i = .ok a ∧ index N' i = .ok b := by
  have hlen := h.length_eq
  unfold index
  split
  · exact Or.inl ⟨_, rfl, rfl⟩
  · cases e : N[i.toNat]? with
    | none =>
      have : N'[i.toNat]? = none := by
        rw [List.getElem?_eq_none_iff] at e ⊢
        omega
      rw [this]
      exact Or.inl ⟨_, rfl, rfl⟩
    | some a =>
      have hi : i.toNat < N'.length := by
        rw [← hlen]
        exact (List.getElem?_eq_some_iff.mp e).1
      rw [List.getElem?_eq_getElem hi]
      exact Or.inr ⟨_, _, rfl, rfl⟩

/-- Two results with the same active break points, all without demerits. -/
def Level (r r' : Res (List (BreakPoint F))) : Prop :=
  r = r' ∧ ∀ bs, r = .ok bs → ∀ b ∈ bs, b.totalDemerits = zero

section
variable {o o' : Options F} (hu : Costs o) (hu' : Costs o') (ht : o'.tolerance = o.tolerance)
include hu hu' ht

theorem pair_mainLoopOn (rt : Runtime) {N N' : List (Node F)} (h : List.Forall₂ (PairN o o') N N') (ideal : F) (sum : Sums F)
    (index : Nat) {x x' : Node F} (hx : PairN o o' x x') (act seen : List (BreakPoint F)) (c : Candidates F) (d d' : F)
    (ha : ∀ b ∈ act, b.totalDemerits = zero) (hs : ∀ b ∈ seen, b.totalDemerits = zero) (hc : NoCost c) (hd : Even o o' d d') :
    Level (mainLoopOn rt o N ideal sum index x act seen c d) (mainLoopOn rt o' N' ideal sum index x' act seen c d') := by
  induction act generalizing seen c d d' with
  | nil =>
    unfold mainLoopOn
    exact ⟨rfl, fun bs e => by cases e; exact hs⟩
  | cons a act ih =>
    have ha0 := ha a (by simp)
    have ha' : ∀ b ∈ act, b.totalDemerits = zero := fun b hb => ha b (List.mem_cons_of_mem _ hb)
    have hr : adjustmentRatio a.totals x sum ideal = adjustmentRatio a.totals x' sum ideal := by
      unfold adjustmentRatio
      rw [hx.1.kind, hx.1.sums]
    have hsn : List.Forall₂ (SimN o o') N N' := h.imp (fun _ _ g => g.1)
    have hsum : sumFromNode N sum index = sumFromNode N' sum index := by
      unfold sumFromNode
      exact sim_from (List.forall₂_drop _ hsn) _ _
    have key : ∀ (seen : List (BreakPoint F)) (c : Candidates F) (d d' : F), (∀ b ∈ seen, b.totalDemerits = zero) → NoCost c →
        Even o o' d d' → Level
        (if act = [] ∨ a.line ≥ a.line + 1 then mainLoopOn rt o N ideal sum index x act
          (seen ++ insertNew rt o N sum index act.length d c) defaultCandidates d
          else mainLoopOn rt o N ideal sum index x act seen c d)
        (if act = [] ∨ a.line ≥ a.line + 1 then mainLoopOn rt o' N' ideal sum index x' act
          (seen ++ insertNew rt o' N' sum index act.length d' c) defaultCandidates d'
          else mainLoopOn rt o' N' ideal sum index x' act seen c d') := by
      intro seen c d d' hs hc hd
      split
      · have hi : insertNew rt o N sum index act.length d c = insertNew rt o' N' sum index act.length d' c ∧
            ∀ b ∈ insertNew rt o N sum index act.length d c, b.totalDemerits = zero := by
          unfold insertNew
          rw [hsum]
          rcases hd with ⟨rfl, rfl⟩ | hd
          · have : Arith.lt (Arith.maxFloat : F) Arith.maxFloat = false := by
              by_contra e
              have := Laws.le_of_lt _ _ (by simpa using e)
              rw [Laws.le_max] at this
              cases this
            simp [this]
          · rw [hd.1.1, hd.2.1]
            exact even_insert hd hc _ _ _ _
        rw [← hi.1]
        refine ih _ _ _ _ ha' (fun b hb => ?_) noCost_default hd
        rcases List.mem_append.mp hb with hb | hb
        · exact hs b hb
        · exact hi.2 b hb
      · exact ih _ _ _ _ ha' hs hc hd
    unfold mainLoopOn
    simp only
    rw [← hr, ← hx.1.forced, ht]
    obtain ⟨ratio, hrd⟩ : ∃ ratio, ratio = adjustmentRatio a.totals x sum ideal := ⟨_, rfl⟩
    rw [← hrd]
    have hseen : ∀ b ∈ (if (Arith.lt ratio (Arith.ofInt (-1)) || x.isForcedBreak) = true then seen else seen ++ [a]),
        b.totalDemerits = zero := by
      intro b hb
      split at hb
      · exact hs b hb
      · rcases List.mem_append.mp hb with hb | hb
        · exact hs b hb
        · rw [List.mem_singleton.mp hb]; exact ha0
    by_cases hf : (Arith.le (Arith.ofInt (-1)) ratio && Arith.le ratio o.tolerance) = true
    · rw [if_pos hf, if_pos hf]
      have hf' := hf
      rw [Bool.and_eq_true] at hf'
      rcases index_pair h (a.position : Int) with ⟨e, h1, h2⟩ | ⟨p, p', h1, h2⟩
      · have e1 : demeritsAndClass o N a x ratio = .error e := by unfold demeritsAndClass; rw [h1]; rfl
        have e2 : demeritsAndClass o' N' a x' ratio = .error e := by unfold demeritsAndClass; rw [h2]; rfl
        rw [e1, e2]
        exact ⟨rfl, fun bs e => by cases e⟩
      · obtain ⟨k, e1, k1⟩ := costs_cheap hu ha0 h1 ratio hx.2.1 hf'.1 hf'.2
        obtain ⟨k', e2, k2⟩ := costs_cheap hu' ha0 h2 ratio hx.2.2 hf'.1 (by rw [ht]; exact hf'.2)
        rw [e1, e2]
        simp only [ok_bind, pure_eq_ok]
        have hset : (if Arith.lt k (c (newFitnessClass ratio)).totalDemerits = true then c.set (newFitnessClass ratio) a else c) =
            (if Arith.lt k' (c (newFitnessClass ratio)).totalDemerits = true then c.set (newFitnessClass ratio) a else c) := by
          rcases hc (newFitnessClass ratio) with e | e
          · rw [e, k1.1, k2.1]
          · rw [e, k1.2.1, k2.2.1]
        rw [← hset]
        refine key _ _ _ _ hseen ?_ (even_min hd k1 k2)
        split
        · exact noCost_set hc _ ha0
        · exact hc
    · rw [if_neg hf, if_neg hf]
      simp only [ok_bind, pure_eq_ok]
      exact key _ _ _ _ hseen hc hd

theorem pair_mainLoop (rt : Runtime) {N N' : List (Node F)} (h : List.Forall₂ (PairN o o') N N') (ideal : F) (sum : Sums F)
    (index : Nat) {x x' : Node F} (hx : PairN o o' x x') (act : List (BreakPoint F)) (ha : ∀ b ∈ act, b.totalDemerits = zero) :
    Level (mainLoop rt o N ideal sum index x act) (mainLoop rt o' N' ideal sum index x' act) :=
  pair_mainLoopOn hu hu' ht rt h ideal sum index hx act [] _ _ _ ha (fun _ h => by cases h) noCost_default (Or.inl ⟨rfl, rfl⟩)

theorem pair_breakLoop (rt : Runtime) {N N' : List (Node F)} (h : List.Forall₂ (PairN o o') N N') (ideal : F)
    {M M' : List (Node F)} (hm : List.Forall₂ (PairN o o') M M') (prev prev' : Option (Node F))
    (hp : prev.map Node.kind = prev'.map Node.kind) (index : Nat) (sum : Sums F) (act : List (BreakPoint F))
    (ha : ∀ b ∈ act, b.totalDemerits = zero) :
    Level (breakLoop rt o N ideal prev M index sum act) (breakLoop rt o' N' ideal prev' M' index sum act) := by
  induction hm generalizing prev prev' index sum act with
  | nil =>
    unfold breakLoop
    exact ⟨rfl, fun bs e => by cases e; exact ha⟩
  | @cons a b M M' hab hm ih =>
    have step : ∀ (p : Prop) [Decidable p] (s' : Sums F), Level
        (do let act ← if p then mainLoop rt o N ideal sum index a act else .ok act
            breakLoop rt o N ideal (some a) M (index + 1) s' act)
        (do let act ← if p then mainLoop rt o' N' ideal sum index b act else .ok act
            breakLoop rt o' N' ideal (some b) M' (index + 1) s' act) := by
      intro p _ s'
      have hk : (some a).map Node.kind = (some b).map Node.kind := by simp [hab.1.kind]
      by_cases hp : p
      · rw [if_pos hp, if_pos hp]
        have hl := pair_mainLoop hu hu' ht rt h ideal sum index hab act ha
        rw [← hl.1]
        cases e : mainLoop rt o N ideal sum index a act with
        | error e => exact ⟨rfl, fun bs e => by cases e⟩
        | ok act' => exact ih _ _ hk _ _ _ (hl.2 _ e)
      · rw [if_neg hp, if_neg hp]
        exact ih _ _ hk _ _ _ ha
    unfold breakLoop
    rw [← hab.1.kind, ← hp, ← hab.1.inf, ← hab.1.sums]
    cases hk : a.kind with
    | box => exact ih _ _ (by simp [hab.1.kind]) _ _ _ ha
    | glue => exact step _ _
    | penalty => exact step _ _

theorem pair_breakPoints (rt : Runtime) {N N' : List (Node F)} (h : List.Forall₂ (PairN o o') N N') (ideal : F) :
    breakPoints rt o N ideal = breakPoints rt o' N' ideal := by
  have hsn : List.Forall₂ (SimN o o') N N' := h.imp (fun _ _ g => g.1)
  unfold breakPoints
  simp only
  rw [sim_find hsn]
  obtain ⟨start, hst⟩ : ∃ start, start = findStartNode N' 0 := ⟨_, rfl⟩
  rw [← hst]
  have hprev : (if start = 0 then none else N[start - 1]?).map Node.kind = (if start = 0 then none else N'[start - 1]?).map Node.kind := by
    split
    · rfl
    · have hd := List.forall₂_drop (start - 1) hsn
      rw [← List.head?_drop, ← List.head?_drop]
      generalize List.drop (start - 1) N = A at hd
      generalize List.drop (start - 1) N' = B at hd
      cases hd with
      | nil => rfl
      | cons g _ => simp [g.kind]
  have hl := pair_breakLoop hu hu' ht rt h ideal (List.forall₂_drop start h) _ _ hprev start Sums.zero [rootPoint]
    (fun b hb => by rw [List.mem_singleton.mp hb]; rfl)
  rw [hl.1]

end

/-- **The penalty of hyphens does not matter**, for any words, widths, split functions and histories. -/
theorem align_priced (rt : Runtime) (env : Env) {l : LineBreaker F} {x : F}
    (hl : Fair l.renderHyphens l.hyphenPenalty) (hx : Fair l.renderHyphens x)
    (hp : l.punctuationPenalty = Arith.ofInt 400) (hh : l.hardHyphenPenalty = Arith.ofInt 200) (hu : Costs l.toOptions)
    (tokens : List (List Rune)) (maxWidth : F) :
    leftAlignUniform rt env (priced l x) tokens maxWidth =
      (leftAlignUniform rt env l tokens maxWidth).map (fun p => (p.1, priced p.2 x)) := by
  have hu' : Costs (priced l x).toOptions := ⟨hu.line, hu.badness, hu.fitness, hx.within, hu.tolerance⟩
  unfold leftAlignUniform leftAlignedNodes
  rcases pair_tokensLoop hl hx hp hh rt env tokens l.attrList with ⟨e, h1, h2⟩ | ⟨n, n', a, h1, h2, h3⟩
  · show (tokensLoop rt env (priced l x) tokens l.attrList >>= _) = _
    rw [h1, h2]; rfl
  · show (tokensLoop rt env (priced l x) tokens l.attrList >>= _) = _
    rw [h1, h2]
    simp only [ok_bind]
    have hb := pair_breakPoints hu hu' rfl rt h3 (l.scale maxWidth)
    have hsn : List.Forall₂ (SimN l.toOptions (priced l x).toOptions) n n' := h3.imp (fun _ _ g => g.1)
    show (breakPoints rt (priced l x).toOptions n' (l.scale maxWidth) >>= _) = _
    rw [← hb]
    cases breakPoints rt l.toOptions n (l.scale maxWidth) with
    | error e => rfl
    | ok bl =>
      cases bl with
      | none => rfl
      | some chain =>
        simp only [ok_bind]
        have hr := sim_render (o := l.toOptions) (o' := (priced l x).toOptions) ⟨rfl, rfl, rfl⟩ a hsn chain
        show (render (priced l x).toOptions a n' chain >>= _) = _
        rw [← hr]
        cases render l.toOptions a n chain <;> rfl

end Verif.Proofs.LB
