import Verif.Proofs.LBExact
import Verif.Spec.Choice

/-! # The text is set exactly when it can be -/

set_option linter.unusedSectionVars false
set_option linter.unusedSimpArgs false

namespace Verif.Proofs.LB
open Verif.Go Verif.Model Verif.Model.LB Verif.Spec Verif.Spec.LB

variable {F : Type} [Arith F] [Laws F]

omit [Laws F] in
theorem chain_path_tight {o : Options F} {l : LineBreaker F} {m : Measure} {W : Int} {nodes : List (Node F)} {ideal : F}
    {T : List (TN F)} {ps : List (Point F)}
    (h : Chain o nodes ideal ps) : ∀ q rest tail, ps = q :: rest → Tight T ps → EarlyAll l m T W ps →
      Path (fun p q => Step o nodes ideal p q ∧ NB T p q ∧ EarlyAt l m T W p q) q tail →
      ∃ pts, ps.reverse ++ tail = rootPoint.toPoint :: pts ∧
        Path (fun p q => Step o nodes ideal p q ∧ NB T p q ∧ EarlyAt l m T W p q) rootPoint.toPoint pts := by
  induction h with
  | root =>
    intro q rest tail he _ _ ht
    cases he
    exact ⟨tail, rfl, ht⟩
  | @cons p q rest' h1 h2 ih =>
    intro q' rest tail he htt hee ht
    cases he
    obtain ⟨pts, g1, g2⟩ := ih p rest' (q :: tail) rfl htt.2 hee.2 (Path.cons ⟨h2, htt.1, hee.1⟩ ht)
    exact ⟨pts, by rw [← g1]; simp, g2⟩

theorem drop_len {α : Type} {t a b : List α} (h : t = a ++ b) : t.drop a.length = b := by rw [h]; simp

omit [Laws F] in
theorem linesLoop_length (nodes : List (Node F)) (pts : List (Point F)) (i : Nat) (r : List (F × List (Node F)))
    (h : linesLoop nodes pts i = .ok r) : r.length = pts.length := by
  induction pts generalizing i r with
  | nil => unfold linesLoop at h; cases h; rfl
  | cons p pts ih =>
    unfold linesLoop at h
    cases h1 : skipNodes i nodes with
    | error e => rw [h1] at h; cases h
    | ok k =>
      rw [h1, ok_bind] at h
      cases h2 : slice nodes k ((p.position : Int) + 1) with
      | error e => rw [h2] at h; cases h
      | ok ns =>
        rw [h2, ok_bind] at h
        cases h3 : linesLoop nodes pts p.position with
        | error e => rw [h3] at h; cases h
        | ok ls =>
          rw [h3, ok_bind] at h
          cases h
          simp [ih _ _ h3]

/-! ## Stretch of a line -/

theorem openSt_stop (d' : List (TN F)) (x : TN F) (v : List (TN F)) :
    openSt (symsT (d' ++ x :: v)) = openSt (symsT d' ++ (stopSym x v).toList) := by
  rw [symsT_append]
  cases hd : symsT d' with
  | cons s r => cases s <;> rfl
  | nil =>
    simp only [List.nil_append]
    rw [symsT_cons]
    unfold stopSym
    cases ht : x.tag with
    | some s => cases s <;> rfl
    | none =>
      simp only [Option.toList, List.nil_append]
      cases hv : symsT v with
      | nil => rfl
      | cons s r => cases s <;> rfl

/-- The stretch at a place. -/
def baseSt (m : Measure) : Option Sym → Int
  | none => 10000
  | some .soft => if m.addHyphens then 6 else 0
  | some _ => 6

/-- The nodes before the first box: they take `i` off the stretch of the first line and put `e` on its width. -/
def Indent (m : Measure) (T : List (TN F)) (i e : Int) : Prop :=
  0 ≤ i ∧ ∃ c y w, T = c ++ y :: w ∧ y.node.kind = .box ∧ (∀ z ∈ c, z.node.kind ≠ .box) ∧
    sumSt (T.take (findStartNode (nds T) 0)) = i ∧ lineWidth m (symsT (c.drop (findStartNode (nds T) 0))) = e

theorem indent_of_start {l : LineBreaker F} {m : Measure} {T : List (TN F)} (hT : Para l m T)
    (hstart : StartsWithPart (symsT T)) : Indent m T 0 0 := by
  obtain ⟨c, y, w, h1, h2, h3, h4⟩ := first_box hT hstart
  refine ⟨Int.le_refl _, c, y, w, h1, h2, h3, hT.start hstart, ?_⟩
  have : symsT (c.drop (findStartNode (nds T) 0)) = [] := by
    have e : symsT c = symsT (c.take (findStartNode (nds T) 0)) ++ symsT (c.drop (findStartNode (nds T) 0)) := by
      rw [← symsT_append, List.take_append_drop]
    rw [h4] at e
    exact (List.append_eq_nil_iff.mp e.symm).2
  rw [this]; rfl

theorem acceptableIn_zero (m : Measure) (W : Int) (ok : Int → Int → Prop) : AcceptableIn 0 0 m W ok = Acceptable m W ok := by
  funext first p s
  unfold AcceptableIn Acceptable
  simp

section
variable {l : LineBreaker F} {m : Measure} (hs : Setup l m) {T : List (TN F)} (hT : Para l m T) {W : Int}
  {i e : Int} (hind : Indent m T i e)
include hT hind

theorem stretch_ind (first : Bool) (c d : List (TN F)) (x : TN F) (v : List (TN F)) (h : T = c ++ d ++ x :: v) (y : TN F)
    (d' : List (TN F)) (hd : d = y :: d') (hy : y.node.kind = .box) (hf : first = true → ∀ z ∈ c, z.node.kind ≠ .box) :
    sumSt d + (if first then sumSt (c.drop (findStartNode (nds T) 0)) else 0) =
        sumSt (c ++ d) - baseSt m (stopSym x v) + (lineStretch m first (symsT d) (stopSym x v) -
        (if first then i else 0)) ∧
      (if first then lineWidth m (symsT (c.drop (findStartNode (nds T) 0))) else 0) = (if first then e else 0) ∧
      lineStretch m first (symsT d) (stopSym x v) ≤ baseSt m (stopSym x v) := by
  have hTc : T = c ++ y :: (d' ++ x :: v) := by rw [h, hd]; simp
  obtain ⟨t, k, ey, hb⟩ := (hT.facts c y _ hTc).box hy
  have hs0 := findStartNode_le_box c y (d' ++ x :: v) 0 (Or.inl hy)
  rw [← hTc] at hs0
  have hsd : symsT d = .part t :: symsT d' := by rw [hd, symsT_cons, ey]; rfl
  have hls : lineStretch m first (symsT d) (stopSym x v) =
      baseSt m (stopSym x v) - (if first then 0 else openSt (symsT d' ++ (stopSym x v).toList)) := by
    unfold lineStretch baseSt
    rw [hsd]
    congr 1
    cases first with
    | true => rfl
    | false =>
      simp only [Bool.false_eq_true, if_false, List.cons_append]
      cases (symsT d' ++ (stopSym x v).toList) with
      | nil => rfl
      | cons a b => cases a <;> rfl
  have hge : 0 ≤ openSt (symsT d' ++ (stopSym x v).toList) := by
    unfold openSt; split <;> omega
  obtain ⟨hi0, c0, y0, w0, hc0, hy0, hcb0, hi, hee⟩ := hind
  have hcc : first = true → c = c0 := by
    intro e
    have hlen : c.length = c0.length := by
      rcases Nat.lt_trichotomy c.length c0.length with hlt | heq | hlt
      · exfalso
        have e1 : (c0 ++ y0 :: w0)[c.length]? = some y := by rw [← hc0, hTc]; simp
        rw [List.getElem?_append_left hlt] at e1
        exact hcb0 y (List.mem_of_getElem? e1) hy
      · exact heq
      · exfalso
        have e1 : (c ++ y :: (d' ++ x :: v))[c0.length]? = some y0 := by rw [← hTc, hc0]; simp
        rw [List.getElem?_append_left hlt] at e1
        exact hf e y0 (List.mem_of_getElem? e1) hy0
    exact (List.append_inj (hTc.symm.trans hc0) hlen).1
  refine ⟨?_, ?_, ?_⟩
  · rw [hls, sumSt_append]
    cases first with
    | false =>
      simp only [Bool.false_eq_true, if_false]
      rw [hb, openSt_stop]; omega
    | true =>
      simp only [if_true]
      have h0 := hi
      have e1 : T.take (findStartNode (nds T) 0) = c.take (findStartNode (nds T) 0) := by
        rw [hTc, List.take_append_of_le_length (by rw [← hTc]; omega)]
      rw [e1] at h0
      have : sumSt c = sumSt (c.take (findStartNode (nds T) 0)) + sumSt (c.drop (findStartNode (nds T) 0)) := by
        rw [← sumSt_append, List.take_append_drop]
      omega
  · cases first with
    | false => simp
    | true =>
      simp only [if_true]
      rw [hcc rfl]; exact hee
  · rw [hls]; split <;> omega

omit hT hind in
/-- The stretch before a place where a line may end: all of it, or none. -/
theorem cut_base {u : List (TN F)} {x : TN F} {v : List (TN F)} (hcut : Cut l m (sumSt u) x v) :
    sumSt u = baseSt m (stopSym x v) ∨ sumSt u = 0 ∧ 6 ≤ baseSt m (stopSym x v) := by
  cases hcut with
  | final e1 e2 _ _ _ e6 => left; rw [e6]; simp [stopSym, e1, e2, symsT, baseSt]
  | pen s e1 e2 _ _ _ e6 =>
    left; rw [e6]
    rcases e2 with rfl | rfl | rfl <;> simp [stopSym, e1, baseSt]
  | gap r e1 e2 _ e4 =>
    rcases e4 with ⟨_, e4⟩ | ⟨_, _, e4⟩
    · right; exact ⟨e4, by simp [stopSym, e1, e2, baseSt]⟩
    · left; rw [e4]; simp [stopSym, e1, e2, baseSt]
  | fin z e1 e2 e3 _ _ _ e7 => right; exact ⟨e7, by simp [stopSym, e1, e2, symsT, e3, baseSt]⟩

/-- A line that may be set is acceptable. -/
theorem acceptable_ind (first : Bool) (c d : List (TN F)) (x : TN F) (v : List (TN F)) (h : T = c ++ d ++ x :: v) (y : TN F)
    (d' : List (TN F)) (hd : d = y :: d') (hy : y.node.kind = .box) (hf : first = true → ∀ z ∈ c, z.node.kind ≠ .box)
    (hcut : Cut l m (sumSt (c ++ d)) x v) (hfe : FeasAt l m T W first c d x v) :
    AcceptableIn i e m W (okRatio l.toOptions) first (symsT d) (stopSym x v) := by
  obtain ⟨h1, h2, h3⟩ := stretch_ind (m := m) hT hind first c d x v h y d' hd hy hf
  unfold FeasAt at hfe
  simp only at hfe
  rw [h2, h1] at hfe
  unfold AcceptableIn
  rcases hfe with hfe | ⟨k1, k2, k3⟩
  · exact Or.inl hfe
  · right
    have hbase := cut_base hcut
    rcases hbase with e | ⟨e, e'⟩
    · rw [e, sub_self, zero_add] at k2 k3
      exact ⟨k1, k2, k3⟩
    · exfalso
      have := hind.1
      split at k2 <;> omega

/-- An acceptable line may be set, at a node with the full stretch. -/
theorem feas_ind (first : Bool) (c d : List (TN F)) (x : TN F) (v : List (TN F)) (h : T = c ++ d ++ x :: v) (y : TN F)
    (d' : List (TN F)) (hd : d = y :: d') (hy : y.node.kind = .box) (hf : first = true → ∀ z ∈ c, z.node.kind ≠ .box)
    (hb : sumSt (c ++ d) = baseSt m (stopSym x v))
    (ha : AcceptableIn i e m W (okRatio l.toOptions) first (symsT d) (stopSym x v)) : FeasAt l m T W first c d x v := by
  obtain ⟨h1, h2, h3⟩ := stretch_ind (m := m) hT hind first c d x v h y d' hd hy hf
  unfold FeasAt
  simp only
  rw [h2, h1, hb, sub_self, zero_add]
  exact ha

end

section
variable {l : LineBreaker F} {m : Measure} (hs : Setup l m) {T : List (TN F)} (hT : Para l m T) {W : Int}
  (hstart : StartsWithPart (symsT T))
include hT hstart

theorem stretch_eq (first : Bool) (c d : List (TN F)) (x : TN F) (v : List (TN F)) (h : T = c ++ d ++ x :: v) (y : TN F)
    (d' : List (TN F)) (hd : d = y :: d') (hy : y.node.kind = .box) (hf : first = true → ∀ z ∈ c, z.node.kind ≠ .box) :
    sumSt d + (if first then sumSt (c.drop (findStartNode (nds T) 0)) else 0) =
        sumSt (c ++ d) - baseSt m (stopSym x v) + lineStretch m first (symsT d) (stopSym x v) ∧
      lineWidth m (symsT (c.drop (findStartNode (nds T) 0))) = (if first then 0 else
        lineWidth m (symsT (c.drop (findStartNode (nds T) 0)))) ∧
      lineStretch m first (symsT d) (stopSym x v) ≤ baseSt m (stopSym x v) := by
  obtain ⟨h1, h2, h3⟩ := stretch_ind (m := m) hT (indent_of_start hT hstart) first c d x v h y d' hd hy hf
  refine ⟨by simpa using h1, ?_, h3⟩
  cases first with
  | false => simp
  | true => simpa using h2

/-- A line that may be set is acceptable. -/
theorem acceptable_of_feas (first : Bool) (c d : List (TN F)) (x : TN F) (v : List (TN F)) (h : T = c ++ d ++ x :: v) (y : TN F)
    (d' : List (TN F)) (hd : d = y :: d') (hy : y.node.kind = .box) (hf : first = true → ∀ z ∈ c, z.node.kind ≠ .box)
    (hcut : Cut l m (sumSt (c ++ d)) x v) (hfe : FeasAt l m T W first c d x v) :
    Acceptable m W (okRatio l.toOptions) first (symsT d) (stopSym x v) := by
  rw [← acceptableIn_zero]
  exact acceptable_ind hT (indent_of_start hT hstart) first c d x v h y d' hd hy hf hcut hfe

/-- An acceptable line may be set, at a node with the full stretch. -/
theorem feas_of_acceptable (first : Bool) (c d : List (TN F)) (x : TN F) (v : List (TN F)) (h : T = c ++ d ++ x :: v) (y : TN F)
    (d' : List (TN F)) (hd : d = y :: d') (hy : y.node.kind = .box) (hf : first = true → ∀ z ∈ c, z.node.kind ≠ .box)
    (hb : sumSt (c ++ d) = baseSt m (stopSym x v))
    (ha : Acceptable m W (okRatio l.toOptions) first (symsT d) (stopSym x v)) : FeasAt l m T W first c d x v := by
  refine feas_ind hT (indent_of_start hT hstart) first c d x v h y d' hd hy hf hb ?_
  rw [acceptableIn_zero]; exact ha

omit hT hstart in
/-- The lines that end the paragraph have class one in narrow widths. -/
theorem last_one (hs : Setup l m) (hT : Para l m T) (hW : Room m T W) (hstart : StartsWithPart (symsT T))
    (ht : Tol l.toOptions) (hpos : 0 < W) (u : List (TN F)) (x : TN F) (h : T = u ++ [x])
    (hst : findStartNode (nds T) 0 ≤ u.length) (hone : W ≤ 4997) :
    (∀ a : BreakPoint F, a = rootPoint ∨ TotAt m T a.toPoint → a.position < u.length →
      (ctxAt l.toOptions (nds T) (Arith.ofInt W) u.length x.node).feas a = true →
      (ctxAt l.toOptions (nds T) (Arith.ofInt W) u.length x.node).cls a = .one) ∧
    (Acceptable m W (okRatio l.toOptions) true (symsT T) none →
      (ctxAt l.toOptions (nds T) (Arith.ofInt W) u.length x.node).feas rootPoint = true) := by
  obtain ⟨ctx, hctx⟩ : ∃ ctx, ctx = ctxAt l.toOptions (nds T) (Arith.ofInt W) u.length x.node := ⟨_, rfl⟩
  rw [← hctx]
  have hf := hT.facts u x [] h
  obtain ⟨hl1, hl2, hl3, hl4⟩ := hf.last rfl
  have hx0 : stopSym x [] = none := by
    unfold stopSym
    rw [hl1]; rfl
  have hcut : Cut l m (sumSt u) x [] := .final rfl hl1 (by rw [hl2]; rfl) (by rw [hl2]; rfl) hl3 hl4
  have hxk : x.node.kind ≠ .box := by rw [hl2]; simp [newPenalty]
  -- the class of a feasible ratio
  have key : ∀ (a : BreakPoint F) (w st : Int), 0 ≤ w → 9994 ≤ st → st ≤ Laws.bound F → |W - w| ≤ Laws.bound F →
      ctx.ratio a = (if w < W then (if 0 < st then Arith.div (Arith.ofInt (W - w)) (Arith.ofInt st) else infinity)
        else if W < w then infinity else zero) → ctx.feas a = true → ctx.cls a = .one := by
    intro a w st h1 h2 h3 h4 h5 h6
    have h7 := (feas_iff ht ctx (by rw [hctx]; rfl) a w W st h3 h4 h5).mp h6
    have hone : ∀ r : F, Arith.le (Arith.ofInt 0) r = true → Arith.le r (Arith.tenths 5) = true → newFitnessClass r = .one := by
      intro r r1 r2
      unfold newFitnessClass
      rw [if_neg (by rw [Laws.minus_half r r1]; simp), if_pos r2]
    unfold Ctx.cls
    rw [h5]
    rcases h7 with h7 | ⟨h7, h8, h9⟩
    · rw [if_neg (by omega), if_neg (by omega)]
      refine hone _ ?_ Laws.zero_half
      rw [show (zero : F) = Arith.ofInt 0 from rfl, Laws.le_int _ _ (small _ (by decide)) (small _ (by decide))]; rfl
    · rw [if_pos h7, if_pos h8]
      refine hone _ (Laws.div_pos _ _ (by omega) ?_ h8 h3) (Laws.div_half _ _ (by omega) h8 h3 (by omega))
      rw [abs_of_pos (by omega)] at h4; exact h4
  obtain ⟨c0, y0, w0, hc0, hy0, hcb0, hcs0⟩ := first_box hT hstart
  have hsplit : ∀ (c : List (TN F)) (y : TN F) (w : List (TN F)), T = c ++ y :: w → y.node.kind = .box →
      ∃ d', w = d' ++ [x] ∧ u = c ++ y :: d' := by
    intro c y w hc hy
    rcases List.eq_nil_or_concat w with rfl | ⟨d', z, rfl⟩
    · exfalso
      have : (u ++ [x]).getLast? = (c ++ [y]).getLast? := by rw [← h, hc]
      simp at this
      rw [this] at hxk
      exact hxk hy
    · rw [List.concat_eq_append] at hc ⊢
      have e : u ++ [x] = (c ++ y :: d') ++ [z] := by rw [← h, hc]; simp
      obtain ⟨e1, e2⟩ := List.append_inj' e rfl
      simp at e2
      exact ⟨d', by rw [e2], e1⟩
  obtain ⟨d0, hw0, hu0⟩ := hsplit c0 y0 w0 hc0 hy0
  have hc0' : T = c0 ++ (y0 :: d0) ++ x :: [] := by rw [hc0, hw0]; simp
  have hsc0 : findStartNode (nds T) 0 ≤ c0.length := by
    have := findStartNode_le_box c0 y0 w0 0 (Or.inl hy0)
    rw [← hc0] at this; omega
  have hr0 := ratio_at hs hT hW (o := l.toOptions) c0 (y0 :: d0) x [] hc0' hsc0 (by rw [← hu0]; exact hcut) true
    rootPoint.toPoint [] rfl _ _ rfl rfl
  obtain ⟨s1, s2, s3⟩ := stretch_eq (m := m) hT hstart true c0 (y0 :: d0) x [] hc0' y0 d0 rfl hy0 (fun _ => hcb0)
  have hTs : symsT T = symsT (y0 :: d0) := by
    rw [hc0', symsT_append, symsT_append, hcs0, symsT_cons x, hl1]
    simp [symsT]
  rw [← hu0, hl4, hx0] at s1
  have e0 : lineStretch m true (symsT (y0 :: d0)) none = 10000 := rfl
  have e1 : baseSt m none = 10000 := rfl
  rw [e0, e1] at s1
  simp only [if_true] at s1 s2 hr0
  rw [← hu0, ← hctx, hx0, s1, s2] at hr0
  have hroot : (⟨rootPoint.toPoint, []⟩ : BreakPoint F) = rootPoint := rfl
  rw [hroot] at hr0
  have hnn := lineWidth_nonneg hs (symsT (y0 :: d0))
  have hend : endWidth m none = 0 := rfl
  rw [hend] at hr0
  constructor
  · intro a ha hap hfe
    rcases ha with rfl | ha
    · exact key rootPoint _ _ (by omega) (by omega) (by have := abs_le.mp hr0.2.1; omega) hr0.2.2 hr0.1 hfe
    · have hTl : T.length = u.length + 1 := by rw [h]; simp
      have hne : T.drop a.position ≠ [] := by
        intro e; have := congrArg List.length e; simp at this; omega
      obtain ⟨a', y, w, g1, g2, g3, g4, g5⟩ := skip_split hT.facts (T.take a.position) (T.drop a.position) (by simp) hne
      have htl : (T.take a.position).length = a.position := by simp; omega
      have hc : T = (T.take a.position ++ a') ++ y :: w := by rw [List.append_assoc, ← g1]; simp
      obtain ⟨c, hcd⟩ : ∃ c, c = T.take a.position ++ a' := ⟨_, rfl⟩
      rw [← hcd] at hc
      have hpc : a.position ≤ c.length := by rw [hcd]; simp [htl]
      have hnb : ∀ z ∈ c.drop a.position, z.node.kind ≠ .box := by
        intro z hz
        rw [hcd, List.drop_append_of_le_length (by omega), List.drop_of_length_le (by omega), List.nil_append] at hz
        exact g2 z hz
      have hat := ha.2 c y w hc hpc hnb g4
      by_cases hyb : y.node.kind = .box
      · obtain ⟨d', hw, hu⟩ := hsplit c y w hc hyb
        have hc' : T = c ++ (y :: d') ++ x :: [] := by rw [hc, hw]; simp
        have hsc : findStartNode (nds T) 0 ≤ c.length := by
          have := findStartNode_le_box c y w 0 (Or.inl hyb)
          rw [← hc] at this; omega
        have hr := ratio_at hs hT hW (o := l.toOptions) c (y :: d') x [] hc' hsc (by rw [← hu]; exact hcut) false
          a.toPoint a.previous (by simpa using hat) _ _ rfl rfl
        obtain ⟨t, k, ey, hb⟩ := (hT.facts c y w hc).box hyb
        have hst : sumSt (y :: d') = 10000 - openSt (symsT w) := by
          have : sumSt u = sumSt c + sumSt (y :: d') := by rw [hu, sumSt_append]
          omega
        have hop : 0 ≤ openSt (symsT w) ∧ openSt (symsT w) ≤ 6 := by
          unfold openSt; split <;> omega
        have hn := lineWidth_nonneg hs (symsT (y :: d'))
        simp only [Bool.false_eq_true, if_false, add_zero] at hr
        rw [← hu, ← hctx, hx0, hend] at hr
        exact key a _ _ (by omega) (by omega) (by have := abs_le.mp hr.2.1; omega) hr.2.2 hr.1 hfe
      · have hw : w = [] := by
          rcases g4 with g4 | g4
          · exact absurd g4 hyb
          · exact g4
        have hcu : c = u := by
          rw [hw] at hc
          exact (List.append_inj' (hc.symm.trans h) rfl).1
        exfalso
        have hr := ratio_at hs hT hW (o := l.toOptions) u [] x [] (by simpa using h) hst (by simpa using hcut) false
          a.toPoint a.previous (by rw [← hcu]; simpa using hat) _ _ rfl rfl
        have hri := hr.1
        simp only [List.append_nil] at hri
        rw [← hctx] at hri
        have := (feas_iff ht ctx (by rw [hctx]; rfl) a _ W _ (by simp [sumSt]; exact le_trans (by decide) (Laws.bound_large (F := F))) hr.2.2 hri).mp hfe
        simp [symsT, lineWidth, hx0, endWidth, sumSt] at this
        omega
  · intro hacc
    refine (feas_iff ht ctx (by rw [hctx]; rfl) rootPoint _ W _ (by have := abs_le.mp hr0.2.1; omega) hr0.2.2 hr0.1).mpr ?_
    rw [hTs] at hacc
    unfold Acceptable at hacc
    simp only [hend, e0] at hacc
    rcases hacc with e | ⟨k1, k2, k3⟩
    · left; omega
    · right
      refine ⟨by omega, by omega, ?_⟩
      have z1 : lineWidth m (symsT (y0 :: d0)) + 0 + 0 = lineWidth m (symsT (y0 :: d0)) + 0 := by omega
      have z2 : (10000 : Int) - 10000 + 10000 = 10000 := by omega
      rw [z1, z2]
      exact k3

end

section
variable {l : LineBreaker F} {m : Measure} (hs : Setup l m) {T : List (TN F)} (hT : Para l m T) {W : Int} (hW : Room m T W)
  (hroot : RootNB l T W) (ht : Tol l.toOptions) (htame : TameOpts l) (hpos : 0 < W) (rt : Runtime)
  (hrt : ∀ (i n : Nat) (c : Class), c ∈ rt.order i n)

theorem reach_legal (u : List (TN F)) (x : TN F) (v : List (TN F)) (h : T = u ++ x :: v)
    (hr : Reach l m T W false u.length) : LegalAt (u.getLast?.map TN.node) x.node := by
  generalize hff : false = f at hr
  generalize hn : u.length = n at hr
  cases hr with
  | root => cases hff
  | @step first pos c d x' v' r1 r2 r3 r4 r5 r6 r7 =>
    have := List.append_inj (h.symm.trans r2) hn
    have h2 := (List.cons.inj this.2).1
    rw [this.1, h2]
    exact r6

include hs hT hW hroot ht htame hpos hrt

theorem inv_step (u : List (TN F)) (x : TN F) (v : List (TN F)) (h : T = u ++ x :: v) (hv : v ≠ [])
    (hst : findStartNode (nds T) 0 ≤ u.length) (hl : LegalAt (u.getLast?.map TN.node) x.node)
    (act : List (BreakPoint F)) (hi : Inv l m T W u.length act) :
    ∃ act', stepRes rt (ctxAt l.toOptions (nds T) (Arith.ofInt W) u.length x.node) act = .ok act' ∧
      Inv l m T W (u ++ [x]).length act' ∧
      act' = act ++ (rt.order u.length 0).filterMap (fun c =>
        ((ctxAt l.toOptions (nds T) (Arith.ofInt W) u.length x.node).pick act c).map
          (newBreak u.length c (ctxAt l.toOptions (nds T) (Arith.ofInt W) u.length x.node).tot)) := by
  obtain ⟨new, h1, h2, h3, _, hnew⟩ := step_new hs hT hW hroot ht htame hpos rt hrt u x v h hst hl act hi
  rw [if_neg hv] at h1
  refine ⟨_, h1, ⟨?_, ?_, ?_, ?_, ?_, ?_, ?_, ?_⟩, by rw [hnew]⟩
  · intro a ha
    rw [List.mem_append] at ha
    rcases ha with ha | ha
    · have := hi.ok a ha
      refine ⟨this.1, ?_⟩
      simp; omega
    · have := h2 a ha
      refine ⟨this.2.1, ?_⟩
      simp; omega
  · rw [List.mem_append]; exact Or.inl hi.root
  · have := hi.first
    cases act with
    | nil => cases this
    | cons a rest => simpa using this
  · intro i a hia
    by_cases hlt : i < act.length
    · rw [List.getElem?_append_left hlt] at hia
      rcases hi.order i a hia with e | ⟨j, p, e1, e2, e3⟩
      · exact Or.inl e
      · exact Or.inr ⟨j, p, e1, by rw [List.getElem?_append_left (by omega)]; exact e2, e3⟩
    · rw [List.getElem?_append_right (by omega)] at hia
      obtain ⟨q, hq, e⟩ := (h2 a (List.mem_of_getElem? hia)).2.2.2.2.2
      obtain ⟨j, hj⟩ := List.getElem?_of_mem hq
      have hjl := (List.getElem?_eq_some_iff.mp hj).1
      exact Or.inr ⟨j, q, by omega, by rw [List.getElem?_append_left hjl]; exact hj, e⟩
  · intro a ha
    rw [List.mem_append] at ha
    rcases ha with ha | ha
    · exact hi.tight a ha
    · exact (h2 a ha).2.2.1
  · intro pos hr hlt
    simp at hlt
    by_cases he : pos = u.length
    · subst he
      obtain ⟨b, hb1, hb2⟩ := h3 hr
      exact ⟨b, by simp [hb1], hb2⟩
    · obtain ⟨a, ha1, ha2⟩ := hi.reach pos hr (by omega)
      exact ⟨a, by simp [ha1], ha2⟩
  · rw [List.pairwise_append]
    refine ⟨hi.sorted, List.pairwise_iff_getElem.mpr ?_, ?_⟩
    · intro i j hi' hj' _
      rw [(h2 _ (List.getElem_mem hi')).1, (h2 _ (List.getElem_mem hj')).1]
    · intro a ha b hb
      rw [(h2 b hb).1]
      have := (hi.ok a ha).2
      omega
  · intro a ha
    rw [List.mem_append] at ha
    rcases ha with ha | ha
    · exact hi.early a ha
    · exact (h2 a ha).2.2.2.2.1

/-- The search, up to the last node. -/
theorem loop_core (v u : List (TN F)) (act : List (BreakPoint F)) (h : T = u ++ v) (hv : v ≠ [])
    (hst : findStartNode (nds T) 0 ≤ u.length) (hi : Inv l m T W u.length act) :
    ∃ act' u' x' act0, breakLoop rt l.toOptions (nds T) (Arith.ofInt W) (u.getLast?.map TN.node) (nds v) u.length
        (sumAt (nds T) u.length) act = .ok act' ∧
      T = u' ++ [x'] ∧ findStartNode (nds T) 0 ≤ u'.length ∧ LegalAt (u'.getLast?.map TN.node) x'.node ∧
      Inv l m T W u'.length act0 ∧
      stepRes rt (ctxAt l.toOptions (nds T) (Arith.ofInt W) u'.length x'.node) act0 = .ok act' := by
  induction v generalizing u act with
  | nil => exact absurd rfl hv
  | cons x v ih =>
    have hun : (nds T) = nds u ++ x.node :: nds v := by rw [h]; simp [nds]
    have hul : (nds u).length = u.length := by simp [nds]
    have hgl : (nds u).getLast? = u.getLast?.map TN.node := by
      unfold nds; exact List.getLast?_map
    have hb := breakLoop_cons rt l.toOptions (nds T) (Arith.ofInt W) (nds u) (nds v) x.node hun (by rw [hul]; exact hst) act
    rw [hul, hgl] at hb
    have e1 : nds (x :: v) = x.node :: nds v := rfl
    have e2 : (nds u ++ [x.node]).length = (u ++ [x]).length := by simp [nds]
    have e3 : (nds u ++ [x.node]).getLast? = (u ++ [x]).getLast?.map TN.node := by simp
    rw [e1, hb, e2, e3]
    have h' : T = (u ++ [x]) ++ v := by rw [h]; simp
    have hst' : findStartNode (nds T) 0 ≤ (u ++ [x]).length := by simp; omega
    by_cases hl : LegalAt (u.getLast?.map TN.node) x.node
    · rw [if_pos hl]
      by_cases hv' : v = []
      · subst hv'
        obtain ⟨new, h1, _⟩ := step_new hs hT hW hroot ht htame hpos rt hrt u x [] h hst hl act hi
        refine ⟨_, u, x, act, ?_, h, hst, hl, hi, h1⟩
        rw [h1]
        simp [nds, breakLoop]
      · obtain ⟨act', h1, h2, _⟩ := inv_step hs hT hW hroot ht htame hpos rt hrt u x v h hv' hst hl act hi
        rw [h1, ok_bind]
        exact ih _ _ h' hv' hst' h2
    · rw [if_neg hl, ok_bind]
      have hv' : v ≠ [] := by
        rintro rfl
        apply hl
        right
        have := ((hT.facts u x [] h).last rfl).2.1
        rw [this]
        refine ⟨rfl, ?_⟩
        simp [newPenalty, minusInfinity, infinity, eq_small (F := F) (-10000) 10000 (by decide) (by decide)]
      refine ih _ _ h' hv' hst' ⟨?_, hi.root, hi.first, hi.order, hi.tight, ?_, hi.sorted, hi.early⟩
      · intro a ha
        have := hi.ok a ha
        refine ⟨this.1, ?_⟩
        simp; omega
      · intro pos hr hlt
        by_cases he : pos = u.length
        · subst he
          exact absurd (reach_legal u x v h hr) hl
        · exact hi.reach pos hr (by simp at hlt; omega)


/-- The search, exactly. -/
theorem loop_tight (v u : List (TN F)) (act : List (BreakPoint F)) (h : T = u ++ v) (hv : v ≠ [])
    (hst : findStartNode (nds T) 0 ≤ u.length) (hi : Inv l m T W u.length act) :
    ∃ act', breakLoop rt l.toOptions (nds T) (Arith.ofInt W) (u.getLast?.map TN.node) (nds v) u.length
        (sumAt (nds T) u.length) act = .ok act' ∧
      (∀ a ∈ act', Tight T (a.toPoint :: a.previous) ∧ EarlyAll l m T W (a.toPoint :: a.previous)) ∧
      (Reach l m T W false (T.length - 1) → act' ≠ []) ∧
      (W ≤ 4997 → StartsWithPart (symsT T) → Acceptable m W (okRatio l.toOptions) true (symsT T) none →
        ∀ a ∈ act', a.previous = [rootPoint.toPoint]) := by
  obtain ⟨act', u', x', act0, g1, g2, g3, g4, g5, g6⟩ := loop_core hs hT hW hroot ht htame hpos rt hrt v u act h hv hst hi
  obtain ⟨new, h1, h2, h3, h4, _⟩ := step_new hs hT hW hroot ht htame hpos rt hrt u' x' [] g2 g3 g4 act0 g5
  rw [g6] at h1
  simp only [if_true, List.nil_append, Except.ok.injEq] at h1
  subst h1
  refine ⟨act', g1, fun a ha => ⟨(h2 a ha).2.2.2.1 rfl, (h2 a ha).2.2.2.2.1⟩, ?_, ?_⟩
  · intro hr
    have : T.length - 1 = u'.length := by rw [g2]; simp
    rw [this] at hr
    obtain ⟨b, hb, _⟩ := h3 hr
    intro e; rw [e] at hb; simp at hb
  · intro hone hstart hacc
    obtain ⟨j1, j2⟩ := last_one hs hT hW hstart ht hpos u' x' g2 g3 hone
    refine h4 (j2 hacc) ?_
    intro a ha
    have ok := g5.ok a ha
    have hul' : u'.length < T.length := by rw [g2]; simp
    refine j1 a ?_ ?_
    · rcases chain_tot hs hT hW ok.1 with e | e
      · exact Or.inl e
      · exact Or.inr e.1
    · obtain ⟨c0, y0, w0, _, _, hlt0, _⟩ := cut_after_first hT hstart u' x' [] g2 ((hT.facts u' x' [] g2).legal g4)
      rcases ok.2 with e | e
      · exact e
      · omega

omit hroot ht htame hpos hrt in
/-- The state before the search. -/
theorem inv_root : Inv l m T W (findStartNode (nds T) 0) [rootPoint] := by
  refine ⟨?_, by simp, rfl, ?_, ?_, ?_, by simp, ?_⟩
  rotate_left 4
  · intro a ha
    simp at ha
    subst ha
    trivial
  · intro a ha
    simp at ha
    subst ha
    exact ⟨Chain.root, Or.inr rfl⟩
  · intro i a hia
    have := List.mem_of_getElem? hia
    simp at this
    subst this
    exact Or.inl rfl
  · intro a ha
    simp at ha
    subst ha
    trivial
  · intro pos hr hlt
    exfalso
    generalize hff : false = f at hr
    cases hr with
    | root => cases hff
    | @step first pos c d x v r1 r2 r3 r4 r5 r6 r7 =>
      obtain ⟨y, d', rfl, hy⟩ := r5
      have := findStartNode_le_box c y (d' ++ x :: v) 0 (Or.inl hy)
      rw [show c ++ y :: (d' ++ x :: v) = T by rw [r2]; simp] at this
      simp only [List.length_append, List.length_cons] at hlt
      omega

end

section
variable {l : LineBreaker F} {m : Measure} (hs : Setup l m) {T : List (TN F)} (hT : Para l m T) {W : Int}
  {i e : Int} (hind : Indent m T i e)
include hT hind

include hs

/-- The place reached by one more line, with the symbols after it. -/
theorem reach_at {first : Bool} {p : List Sym} {s : Sym} {rest : List Sym} (hp : StartsWithPart p) (hns : ∀ t, s ≠ .part t)
    (hP : AcceptableIn i e m W (okRatio l.toOptions) first p (some s)) (pos : Nat)
    (hr : Reach l m T W first pos) (hlt : pos < T.length) (hss : p ++ s :: rest = startLine (symsT (T.drop pos))) :
    ∃ pos', Reach l m T W false pos' ∧ pos' < T.length ∧ symsT (T.drop pos') = s :: rest := by
  have hne : T.drop pos ≠ [] := by
    intro e; have := congrArg List.length e; simp at this; omega
  have htl : (T.take pos).length = pos := by simp; omega
  obtain ⟨a, y, w, g1, g2, g3, g4, g5⟩ := skip_split hT.facts (T.take pos) (T.drop pos) (by simp) hne
  have hsl : startLine (symsT (T.drop pos)) = startLine (symsT (y :: w)) := by
    rw [g1, symsT_append]
    exact startLine_nonparts hT.facts a g3 _
  have hc : T = (T.take pos ++ a) ++ y :: w := by rw [List.append_assoc, ← g1]; simp
  obtain ⟨t0, r0, hp0⟩ := hp
  have hyk : y.node.kind = .box := by
    rcases g4 with g4 | g4
    · exact g4
    · exfalso
      subst g4
      have := ((hT.facts _ y [] hc).last rfl).1
      rw [hsl, symsT_cons, this, hp0] at hss
      simp [symsT, startLine] at hss
  obtain ⟨t, k, ey, _⟩ := (hT.facts _ y w hc).box hyk
  have hsy : symsT (y :: w) = .part t :: symsT w := by rw [symsT_cons, ey]; rfl
  have hss2 : symsT (y :: w) = p ++ s :: rest := by
    rw [hss, hsl, hsy]; rfl
  -- the node with the symbol
  obtain ⟨d0, b0, k1, k2, k3⟩ := List.filterMap_eq_append_iff.mp hss2
  obtain ⟨e0, z, v, k4, k5, k6, k7⟩ := List.filterMap_eq_cons_iff.mp k3
  have hd0 : d0 ++ e0 ≠ [] := by
    intro e
    have : d0 = [] := (List.append_eq_nil_iff.mp e).1
    rw [this] at k2
    simp [hp0] at k2
  obtain ⟨d, hd⟩ : ∃ d, d = d0 ++ e0 := ⟨_, rfl⟩
  have hdw : y :: w = d ++ z :: v := by rw [k1, k4, hd]; simp
  have hsd : symsT d = p := by
    rw [hd, symsT_append]
    have : symsT e0 = [] := by unfold symsT; rw [List.filterMap_eq_nil_iff]; exact k5
    rw [this, List.append_nil]; exact k2
  have hsv : symsT v = rest := k7
  obtain ⟨d', hdy⟩ : ∃ d', d = y :: d' := by
    rw [← hd] at hd0
    cases d with
    | nil => exact absurd rfl hd0
    | cons q d' =>
      simp only [List.cons_append, List.cons.injEq] at hdw
      exact ⟨d', by rw [hdw.1]⟩
  have hTz : T = (T.take pos ++ a) ++ d ++ z :: v := by
    conv_lhs => rw [hc, hdw]
    simp
  have hnb : first = true → ∀ z ∈ T.take pos ++ a, z.node.kind ≠ .box := by
    intro e
    subst e
    have hp0 : pos = 0 := by
      clear hlt hss htl hne g1 g5 hsl hc hTz hdw hP
      generalize hff : true = f at hr
      cases hr with
      | root => rfl
      | step => cases hff
    subst hp0
    simpa using g2
  have hdrop : ∀ z ∈ (T.take pos ++ a).drop pos, z.node.kind ≠ .box := by
    intro z hz
    rw [List.drop_append_of_le_length (by omega), List.drop_of_length_le (by omega), List.nil_append] at hz
    exact g2 z hz
  have hmz := hT.more _ z v hTz
  have hfz := hT.facts _ z v hTz
  by_cases hgap : s = .gap
  · -- between two words: the penalty before the space
    subst hgap
    obtain ⟨q1, q2⟩ := hmz.gap k6
    obtain ⟨d1, x, hx⟩ : ∃ d1 x, d = d1 ++ [x] := by
      rcases List.eq_nil_or_concat d with e | ⟨d1, x, e⟩
      · rw [hdy] at e; cases e
      · exact ⟨d1, x, by rw [e, List.concat_eq_append]⟩
    have hxn : x.node = newPenalty zero zero false := by
      rw [hx] at q2
      simpa using q2
    obtain ⟨d1', hd1⟩ : ∃ d1', d1 = y :: d1' := by
      cases d1 with
      | nil =>
        exfalso
        rw [hdy] at hx
        simp only [List.nil_append, List.cons.injEq] at hx
        rw [hx.1, hxn] at hyk
        cases hyk
      | cons q d1' =>
        rw [hdy] at hx
        simp only [List.cons_append, List.cons.injEq] at hx
        exact ⟨d1', by rw [hx.1]⟩
    have hTx : T = (T.take pos ++ a) ++ d1 ++ x :: (z :: v) := by
      conv_lhs => rw [hTz, hx]
      simp
    have hfx := hT.facts _ x _ hTx
    have hlegal : LegalAt (((T.take pos ++ a) ++ d1).getLast?.map TN.node) x.node := by
      right
      rw [hxn]
      refine ⟨rfl, ?_⟩
      simp [newPenalty, zero, infinity, eq_small (F := F) 0 10000 (by decide) (by decide)]
    have hxt : x.tag = none := by
      cases hxt : x.tag with
      | none => rfl
      | some s' =>
        exfalso
        have hcut := hfx.legal hlegal
        cases hcut with
        | final _ e _ _ _ _ => rw [hxt] at e; cases e
        | pen s2 e1 e2 _ _ _ _ =>
          have := (hT.more _ x _ hTx).tagged s2 e1 e2
          rw [hxn] at this
          exact absurd this.2.2 (by simp [newPenalty])
        | gap _ e _ _ _ => rw [hxt] at e; cases e
        | fin _ e _ _ _ _ _ _ => rw [hxt] at e; cases e
    have hsz : symsT (z :: v) = .gap :: rest := by rw [symsT_cons, k6, hsv]; rfl
    have hstop : stopSym x (z :: v) = some .gap := by unfold stopSym; rw [hxt, hsz]; rfl
    have hsd1 : symsT d1 = p := by
      rw [← hsd, hx, symsT_append, symsT_cons, hxt]; simp [symsT]
    have hbase : sumSt ((T.take pos ++ a) ++ d1) = baseSt m (stopSym x (z :: v)) := by
      rw [hstop]
      cases hfx.legal hlegal with
      | final e _ _ _ _ _ => cases e
      | pen s2 e1 _ _ _ _ _ => rw [hxt] at e1; cases e1
      | gap _ _ _ _ e =>
        rcases e with ⟨e, _⟩ | ⟨_, _, e⟩
        · rw [hxn] at e; cases e
        · exact e
      | fin _ _ e2 _ e4 e5 _ _ => rw [hxn] at e5; cases e5
    have hnew := Reach.step (T.take pos ++ a) d1 x (z :: v) hr hTx (by simp [htl]) hdrop ⟨y, d1', hd1, hyk⟩ hlegal
      (feas_ind hT hind first _ _ x _ hTx y d1' hd1 hyk hnb hbase (by rw [hstop, hsd1]; exact hP))
    refine ⟨_, hnew, ?_, ?_⟩
    · conv_rhs => rw [hTx]
      simp
    · have : T.drop ((T.take pos ++ a) ++ d1).length = x :: (z :: v) := drop_len hTx
      rw [this, symsT_cons, hxt, hsz]; rfl
  · -- a penalty
    have hs3 : s = .mark ∨ s = .hard ∨ s = .soft := by
      cases s with
      | part t => exact absurd rfl (hns t)
      | gap => exact absurd rfl hgap
      | soft => simp
      | mark => simp
      | hard => simp
    obtain ⟨q1, q2, _⟩ := hmz.tagged s k6 hs3
    have hlegal : LegalAt (((T.take pos ++ a) ++ d).getLast?.map TN.node) z.node := by
      right
      refine ⟨q1, ?_⟩
      rw [q2]
      rcases hs3 with rfl | rfl | rfl
      · simp [penOf, hs.punct, infinity, eq_small (F := F) 400 10000 (by decide) (by decide)]
      · simp [penOf, hs.hard, infinity, eq_small (F := F) 200 10000 (by decide) (by decide)]
      · exact hs.finite
    have hstop : stopSym z v = some s := by unfold stopSym; rw [k6]
    have hbase : sumSt ((T.take pos ++ a) ++ d) = baseSt m (stopSym z v) := by
      rw [hstop]
      cases hfz.legal hlegal with
      | final _ e _ _ _ _ => rw [k6] at e; cases e
      | pen s2 e1 _ _ _ _ e6 =>
        rw [k6] at e1
        simp only [Option.some.injEq] at e1
        subst e1
        rw [e6]
        rcases hs3 with rfl | rfl | rfl <;> simp [baseSt]
      | gap _ e _ _ _ => rw [k6] at e; cases e
      | fin _ e _ _ _ _ _ _ => rw [k6] at e; cases e
    have hnew := Reach.step (T.take pos ++ a) d z v hr hTz (by simp [htl]) hdrop ⟨y, d', hdy, hyk⟩ hlegal
      (feas_ind hT hind first _ _ z _ hTz y d' hdy hyk hnb hbase (by rw [hstop, hsd]; exact hP))
    refine ⟨_, hnew, ?_, ?_⟩
    · conv_rhs => rw [hTz]
      simp
    · have : T.drop ((T.take pos ++ a) ++ d).length = z :: v := drop_len hTz
      rw [this, symsT_cons, k6, hsv]; rfl

/-- The place reached by one more line. -/
theorem reach_brk {first : Bool} {p : List Sym} {s : Sym} {rest : List Sym} (hp : StartsWithPart p) (hns : ∀ t, s ≠ .part t)
    (hP : AcceptableIn i e m W (okRatio l.toOptions) first p (some s)) (pos : Nat)
    (hr : Reach l m T W first pos) (hlt : pos < T.length) (hss : p ++ s :: rest = startLine (symsT (T.drop pos))) :
    ∃ pos', Reach l m T W false pos' ∧ pos' < T.length ∧ startLine rest = startLine (symsT (T.drop pos')) := by
  obtain ⟨pos', h1, h2, h3⟩ := reach_at hs hT hind hp hns hP pos hr hlt hss
  refine ⟨pos', h1, h2, ?_⟩
  rw [h3]
  cases s with
  | part t => exact absurd rfl (hns t)
  | _ => rfl

/-- The last place, reached by one more line. -/
theorem reach_last {first : Bool} {p : List Sym} (hp : StartsWithPart p)
    (hP : AcceptableIn i e m W (okRatio l.toOptions) first p none) (pos : Nat)
    (hr : Reach l m T W first pos) (hlt : pos < T.length) (hss : p = startLine (symsT (T.drop pos))) :
    Reach l m T W false (T.length - 1) := by
  have hne : T.drop pos ≠ [] := by
    intro e; have := congrArg List.length e; simp at this; omega
  have htl : (T.take pos).length = pos := by simp; omega
  obtain ⟨a, y, w, g1, g2, g3, g4, g5⟩ := skip_split hT.facts (T.take pos) (T.drop pos) (by simp) hne
  have hsl : startLine (symsT (T.drop pos)) = startLine (symsT (y :: w)) := by
    rw [g1, symsT_append]
    exact startLine_nonparts hT.facts a g3 _
  have hc : T = (T.take pos ++ a) ++ y :: w := by rw [List.append_assoc, ← g1]; simp
  have hyk : y.node.kind = .box := by
    rcases g4 with g4 | g4
    · exact g4
    · exfalso
      subst g4
      have := ((hT.facts _ y [] hc).last rfl).1
      rw [hsl, symsT_cons, this] at hss
      obtain ⟨t, r, e⟩ := hp
      rw [e] at hss
      simp [symsT, startLine] at hss
  obtain ⟨t, k, ey, _⟩ := (hT.facts _ y w hc).box hyk
  have hsy : symsT (y :: w) = .part t :: symsT w := by rw [symsT_cons, ey]; rfl
  rw [hsl, hsy] at hss
  -- the last node
  obtain ⟨w', x, hw⟩ : ∃ w' x, w = w' ++ [x] := by
    rcases List.eq_nil_or_concat w with e | ⟨w', x, e⟩
    · exfalso
      subst e
      have := ((hT.facts _ y [] hc).last rfl).2.1
      rw [this] at hyk; cases hyk
    · exact ⟨w', x, by rw [e, List.concat_eq_append]⟩
  subst hw
  have hTx : T = (T.take pos ++ a) ++ (y :: w') ++ x :: [] := by rw [List.append_assoc]; exact hc
  have hfx := hT.facts _ x [] hTx
  have hlast := hfx.last rfl
  have hlen : T.length - 1 = ((T.take pos ++ a) ++ (y :: w')).length := by
    conv_lhs => rw [hTx]
    simp [htl]
    omega
  rw [hlen]
  have hstop : stopSym x [] = none := by unfold stopSym; rw [hlast.1]; rfl
  have hsd : symsT (y :: w') = p := by
    rw [hss]
    have : symsT (y :: (w' ++ [x])) = symsT (y :: w') := by
      rw [show y :: (w' ++ [x]) = (y :: w') ++ [x] from rfl, symsT_append, symsT_cons x, hlast.1]
      simp [symsT]
    rw [← this, hsy]; rfl
  have hnb : first = true → ∀ z ∈ T.take pos ++ a, z.node.kind ≠ .box := by
    intro e
    subst e
    have hp0 : pos = 0 := by
      clear hlt hss htl hne g1 g5 hsl hc hTx hlen hfx hlast hP
      generalize hff : true = f at hr
      cases hr with
      | root => rfl
      | step => cases hff
    subst hp0
    simpa using g2
  refine Reach.step (T.take pos ++ a) (y :: w') x [] hr hTx (by simp [htl]) ?_ ⟨y, w', rfl, hyk⟩ ?_ ?_
  · intro z hz
    rw [List.drop_append_of_le_length (by omega), List.drop_of_length_le (by omega), List.nil_append] at hz
    exact g2 z hz
  · right
    rw [hlast.2.1]
    refine ⟨rfl, ?_⟩
    simp [newPenalty, minusInfinity, infinity, eq_small (F := F) (-10000) 10000 (by decide) (by decide)]
  · refine feas_ind hT hind first _ _ x [] hTx y w' rfl hyk hnb ?_ ?_
    · rw [hlast.2.2.2, hstop]; rfl
    · rw [hstop, hsd]; exact hP

/-- **From a setting to break points**: a text that can be set reaches the last node. -/
theorem reach_of_layout {hy : Sym → List Rune} {first : Bool} {ss : List Sym} {lines : List Line}
    (hl : Layout hy (AcceptableIn i e m W (okRatio l.toOptions)) false first ss lines) (pos : Nat)
    (hr : Reach l m T W first pos) (hlt : pos < T.length) (hss : ss = startLine (symsT (T.drop pos))) :
    Reach l m T W false (T.length - 1) := by
  induction hl generalizing pos with
  | blankLine h => cases h
  | lastBlank h => cases h
  | blankAfter _ h => cases h
  | @last first p hp hP => exact reach_last hs hT hind hp hP pos hr hlt hss
  | @brk first p s hh rest lines hp hns hhy hP hrest ih =>
    obtain ⟨pos', h1, h2, h3⟩ := reach_brk hs hT hind hp hns hP pos hr hlt hss
    exact ih pos' h1 h2 h3

end

section
variable {l : LineBreaker F} {m : Measure} (hs : Setup l m) {T : List (TN F)} (hT : Para l m T) {W : Int}
  (hstart : StartsWithPart (symsT T))
include hT hstart

include hs

/-- The places reached by acceptable lines. -/
theorem reach_left {first : Bool} {rest : List Sym} (h : Left (Acceptable m W (okRatio l.toOptions)) (symsT T) first rest) :
    ∃ pos, Reach l m T W first pos ∧ pos < T.length ∧ rest = startLine (symsT (T.drop pos)) := by
  induction h with
  | start =>
    obtain ⟨t, r, e⟩ := hstart
    refine ⟨0, .root, ?_, ?_⟩
    · cases T with
      | nil => simp [symsT] at e
      | cons => simp
    · rw [List.drop_zero, e]; rfl
  | line p s _ h1 h2 h3 ih =>
    obtain ⟨pos, k1, k2, k3⟩ := ih
    exact reach_brk hs hT (indent_of_start hT hstart) h1 h2 (by rw [acceptableIn_zero]; exact h3) pos k1 k2 k3

end

section
variable {l : LineBreaker F} {m : Measure} (hs : Setup l m) {T : List (TN F)} (hT : Para l m T) {W : Int} (hW : Room m T W)
  (hstart : StartsWithPart (symsT T))
include hs hT hW hstart

/-- The class of a line that may be set. -/
theorem class_at (first : Bool) (c d : List (TN F)) (x : TN F) (v : List (TN F)) (h : T = c ++ d ++ x :: v) (y : TN F)
    (d' : List (TN F)) (hd : d = y :: d') (hy : y.node.kind = .box) (hf : first = true → ∀ z ∈ c, z.node.kind ≠ .box)
    (hcut : Cut l m (sumSt (c ++ d)) x v) (hfe : FeasAt l m T W first c d x v) :
    (newFitnessClass (ratioAt m T W first c d x v : F)).toInt = looseness F m W first (symsT d) (stopSym x v) := by
  have hTc : T = c ++ y :: (d' ++ x :: v) := by rw [h, hd]; simp
  have hsc : findStartNode (nds T) 0 ≤ c.length := by
    have := findStartNode_le_box c y (d' ++ x :: v) 0 (Or.inl hy)
    rw [← hTc] at this; omega
  obtain ⟨_, b1, b2⟩ := ratio_at hs hT hW (o := l.toOptions) c d x v h hsc hcut first
    { (rootPoint : BreakPoint F).toPoint with totals := if first then Sums.zero else sumsT m (c.drop (findStartNode (nds T) 0)) } []
    rfl _ _ rfl rfl
  obtain ⟨h1, h2, h3⟩ := stretch_eq (m := m) hT hstart first c d x v h y d' hd hy hf
  have hw : (if first then lineWidth m (symsT (c.drop (findStartNode (nds T) 0))) else 0) = 0 := by
    cases first with
    | false => rfl
    | true => simpa using h2
  unfold FeasAt at hfe
  unfold ratioAt looseness
  simp only at hfe ⊢
  rw [hw, add_zero, h1] at hfe ⊢
  rw [h1] at b1
  rw [hw, add_zero] at b2
  have hpos : ∀ r : F, Arith.le (Arith.ofInt 0) r = true → (newFitnessClass r).toInt =
      if Arith.le r (Arith.tenths 5) = true then 1 else if Arith.le r (Arith.ofInt 1) = true then 2 else 3 := by
    intro r hr
    unfold newFitnessClass
    rw [if_neg (by rw [Laws.minus_half r hr]; simp)]
    split
    · rfl
    · split <;> rfl
  rcases hfe with hfe | ⟨k1, k2, k3⟩
  · rw [if_neg (by omega), if_neg (by omega), if_pos hfe, hpos, if_pos]
    · exact Laws.zero_half
    · rw [show (zero : F) = Arith.ofInt 0 from rfl, Laws.le_int _ _ (small _ (by decide)) (small _ (by decide))]; rfl
  · rw [if_pos k1, if_pos k2, if_neg (by omega), hpos]
    · have hbase : sumSt (c ++ d) - baseSt m (stopSym x v) = 0 := by
        have : sumSt (c ++ d) = baseSt m (stopSym x v) ∨ sumSt (c ++ d) = 0 ∧ 6 ≤ baseSt m (stopSym x v) := cut_base hcut
        omega
      rw [hbase, zero_add]
    · rw [abs_of_pos (by omega)] at b2
      rw [abs_of_pos k2] at b1
      exact Laws.div_pos _ _ (by omega) b2 k2 b1

/-- A line that starts as early as possible. -/
theorem earliest_of_early {p q : Point F} (first : Bool) (c d : List (TN F)) (x : TN F) (v : List (TN F))
    (h : T = c ++ d ++ x :: v) (y : TN F) (d' : List (TN F)) (hd : d = y :: d') (hy : y.node.kind = .box)
    (hpc : p.position ≤ c.length) (hnb : ∀ z ∈ c.drop p.position, z.node.kind ≠ .box)
    (hf : first = true → ∀ z ∈ c, z.node.kind ≠ .box) (hq : q.position = (c ++ d).length)
    (hcut : Cut l m (sumSt (c ++ d)) x v) (hfe : FeasAt l m T W first c d x v)
    (hcls : q.fitness = newFitnessClass (ratioAt m T W first c d x v : F)) (he : EarlyAt l m T W p q) :
    Earliest (Acceptable m W (okRatio l.toOptions)) (looseness F m W) (symsT T) first (symsT d) (stopSym x v)
      (restSym x v) := by
  intro qq f hleft hacc hloose
  obtain ⟨pos, hr, hlt, hrest⟩ := reach_left hs hT hstart hleft
  have hTc : T = c ++ y :: (d' ++ x :: v) := by rw [h, hd]; simp
  obtain ⟨t, k, ey, _⟩ := (hT.facts c y _ hTc).box hy
  have hne : T.drop pos ≠ [] := by
    intro e; have := congrArg List.length e; simp at this; omega
  have htl : (T.take pos).length = pos := by simp; omega
  obtain ⟨a, y', w, g1, g2, g3, g4, g5⟩ := skip_split hT.facts (T.take pos) (T.drop pos) (by simp) hne
  have hsl : startLine (symsT (T.drop pos)) = startLine (symsT (y' :: w)) := by
    rw [g1, symsT_append]
    exact startLine_nonparts hT.facts a g3 _
  have hc' : T = (T.take pos ++ a) ++ y' :: w := by rw [List.append_assoc, ← g1]; simp
  have hsd : symsT d = .part t :: symsT d' := by rw [hd, symsT_cons, ey]; rfl
  have hyk : y'.node.kind = .box := by
    rcases g4 with g4 | g4
    · exact g4
    · exfalso
      subst g4
      have := ((hT.facts _ y' [] hc').last rfl).1
      rw [hsl, symsT_cons, this, hsd] at hrest
      simp [symsT, startLine] at hrest
  obtain ⟨t', k', ey', _⟩ := (hT.facts _ y' w hc').box hyk
  have hsy : symsT (y' :: w) = .part t' :: symsT w := by rw [symsT_cons, ey']; rfl
  have hsyms : symsT (y' :: w) = qq ++ symsT (d ++ x :: v) := by
    rw [symsT_append, stop_rest x]
    have e : startLine (symsT (y' :: w)) = symsT (y' :: w) := by rw [hsy]; rfl
    rw [← e, ← hsl, ← hrest]
    simp
  obtain ⟨c', hcd⟩ : ∃ c', c' = T.take pos ++ a := ⟨_, rfl⟩
  rw [← hcd] at hc'
  have hpc' : pos ≤ c'.length := by rw [hcd]; simp [htl]
  have hnb' : ∀ z ∈ c'.drop pos, z.node.kind ≠ .box := by
    intro z hz
    rw [hcd, List.drop_append_of_le_length (by omega), List.drop_of_length_le (by omega), List.nil_append] at hz
    exact g2 z hz
  have hdd : T.drop c.length = d ++ x :: v := drop_len (by rw [h]; simp)
  have hdd' : T.drop c'.length = y' :: w := drop_len hc'
  -- where the other line starts
  have hle : c'.length ≤ c.length := by
    by_contra hlt
    have e1 : T.drop c.length = (T.drop c.length).take (c'.length - c.length) ++ T.drop c'.length := by
      conv_lhs => rw [← List.take_append_drop (c'.length - c.length) (T.drop c.length)]
      rw [List.drop_drop, show c.length + (c'.length - c.length) = c'.length by omega]
    have e2 : (T.drop c.length).take (c'.length - c.length) = y :: d'.take (c'.length - c.length - 1) ++
        ((x :: v).take (c'.length - c.length - 1 - d'.length)) := by
      rw [hdd, hd, show c'.length - c.length = (c'.length - c.length - 1) + 1 by omega]
      simp [List.take_append]
    have e3 := congrArg symsT e1
    rw [symsT_append, e2, hdd, hdd', hsyms] at e3
    have e4 := congrArg List.length e3
    rw [symsT_append (y :: _), symsT_cons, ey] at e4
    simp [boxT] at e4
    omega
  obtain ⟨e, hce⟩ : ∃ e, e = (T.drop c'.length).take (c.length - c'.length) := ⟨_, rfl⟩
  have hcc : c = c' ++ e := by
    have e1 : T.take c.length = c := by rw [h]; simp
    have e2 : T.take c'.length = c' := by
      conv_lhs => rw [hc']
      simp
    rw [← e1, hce, ← e2, show (T.take c'.length).length = c'.length by rw [e2]]
    conv_lhs => rw [show c.length = c'.length + (c.length - c'.length) by omega, List.take_add]
  have hqq : symsT e = qq := by
    have e1 : y' :: w = e ++ (d ++ x :: v) := by
      rw [← hdd', ← hdd]
      conv_lhs => rw [← List.take_append_drop (c.length - c'.length) (T.drop c'.length)]
      rw [← hce, List.drop_drop, show c'.length + (c.length - c'.length) = c.length by omega]
    rw [e1, symsT_append] at hsyms
    exact List.append_cancel_right hsyms
  have hTe : T = c' ++ (e ++ d) ++ x :: v := by rw [h, hcc]; simp
  obtain ⟨d2, hd2⟩ : ∃ d2, e ++ d = y' :: d2 := by
    have e1 : (e ++ d) ++ x :: v = y' :: w := by
      have : c' ++ ((e ++ d) ++ x :: v) = c' ++ y' :: w := by rw [← hc']; conv_rhs => rw [hTe]
                                                              simp
      exact List.append_cancel_left this
    cases hed : e ++ d with
    | nil =>
      have := (List.append_eq_nil_iff.mp hed).2
      rw [hd] at this; cases this
    | cons z zs =>
      rw [hed] at e1
      simp only [List.cons_append, List.cons.injEq] at e1
      exact ⟨zs, by rw [e1.1]⟩
  have hf' : f = true → ∀ z ∈ c', z.node.kind ≠ .box := by
    intro ef
    subst ef
    have hp0 : pos = 0 := by
      clear hleft hacc hloose hlt hrest hne htl g1 g5 hsl hcd hpc' hnb'
      generalize hff : true = f at hr
      cases hr with
      | root => rfl
      | step => cases hff
    subst hp0
    simpa using hnb'
  have hlen : (c' ++ (e ++ d)).length = (c ++ d).length := by rw [hcc]; simp
  have hcut' : Cut l m (sumSt (c' ++ (e ++ d))) x v := by
    rw [← List.append_assoc, ← hcc]; exact hcut
  have hse : symsT (e ++ d) = qq ++ symsT d := by rw [symsT_append, hqq]
  -- the other line may be set
  have hfe' : FeasAt l m T W f c' (e ++ d) x v := by
    rcases cut_base hcut with hb | ⟨hb, hb'⟩
    · refine feas_of_acceptable hT hstart f c' _ x v hTe y' d2 hd2 hyk hf' ?_ ?_
      · rw [← List.append_assoc, ← hcc]; exact hb
      · rw [hse]; exact hacc
    · -- only the exact width
      obtain ⟨h1, h2, h3⟩ := stretch_eq (m := m) hT hstart first c d x v h y d' hd hy hf
      obtain ⟨h1', h2', h3'⟩ := stretch_eq (m := m) hT hstart f c' _ x v hTe y' d2 hd2 hyk hf'
      have hw : (if first then lineWidth m (symsT (c.drop (findStartNode (nds T) 0))) else 0) = 0 := by
        cases first with
        | false => rfl
        | true => simpa using h2
      have hw' : (if f then lineWidth m (symsT (c'.drop (findStartNode (nds T) 0))) else 0) = 0 := by
        cases f with
        | false => rfl
        | true => simpa using h2'
      unfold FeasAt at hfe ⊢
      simp only at hfe ⊢
      rw [hw, add_zero, h1] at hfe
      rw [hw', add_zero]
      unfold Acceptable at hacc
      simp only at hacc
      rw [← hse] at hacc
      have hwd : lineWidth m (symsT (e ++ d)) = lineWidth m (symsT e) + lineWidth m (symsT d) := by
        rw [symsT_append, lineWidth_append]
      have hnn := lineWidth_nonneg hs (symsT e)
      left
      rcases hfe with hfe | ⟨_, k2, _⟩
      · rcases hacc with hacc | ⟨k1, _⟩
        · exact hacc
        · omega
      · omega
  have hcls' : newFitnessClass (ratioAt m T W f c' (e ++ d) x v : F) = q.fitness := by
    have e1 := class_at hs hT hW hstart f c' _ x v hTe y' d2 hd2 hyk hf' hcut' hfe'
    have e2 := class_at hs hT hW hstart first c d x v h y d' hd hy hf hcut hfe
    rw [hse, hloose, ← e2] at e1
    rw [hcls]
    revert e1
    cases newFitnessClass (ratioAt m T W f c' (e ++ d) x v : F) <;>
      cases newFitnessClass (ratioAt m T W first c d x v : F) <;> simp [Class.toInt]
  have hfin := he f pos c' (e ++ d) x v hr hTe (by rw [hlen, hq]) hpc' hnb' ⟨y', d2, hd2, hyk⟩ hfe' hcls'
  have hge : c.length ≤ c'.length := by
    by_contra hlt
    apply hnb y' _ hyk
    have e1 : T[c'.length]? = some y' := by rw [hc']; simp
    have e2 : c[c'.length]? = some y' := by
      rw [hTc, List.getElem?_append_left (by omega)] at e1; exact e1
    have e3 : (c.drop p.position)[c'.length - p.position]? = some y' := by
      rw [List.getElem?_drop, show p.position + (c'.length - p.position) = c'.length by omega]; exact e2
    exact List.mem_of_getElem? e3
  have he0 : e = [] := by
    have := congrArg List.length hcc
    simp at this
    exact List.eq_nil_of_length_eq_zero (by omega)
  rw [← hqq, he0]; rfl

end

/-! ## The result -/

/-- The text added at line ends does not matter. -/
theorem Layout.hy {hy hy' : Sym → List Rune} {P : Bool → List Sym → Option Sym → Prop} {blank first : Bool} {ss : List Sym}
    {lines : List Line} (h : Layout hy P blank first ss lines) : ∃ lines', Layout hy' P blank first ss lines' := by
  induction h with
  | last p h1 h2 => exact ⟨_, .last p h1 h2⟩
  | brk p s _ h1 h2 _ h4 _ ih =>
    obtain ⟨l', h'⟩ := ih
    exact ⟨_, .brk p s _ h1 h2 (Or.inl rfl) h4 h'⟩
  | blankLine h1 _ ih =>
    obtain ⟨l', h'⟩ := ih
    exact ⟨_, .blankLine h1 h'⟩
  | lastBlank h1 => exact ⟨_, .lastBlank h1⟩
  | blankAfter p h1 h2 h3 _ ih =>
    obtain ⟨l', h'⟩ := ih
    exact ⟨_, .blankAfter p h1 h2 h3 h'⟩

/-- The exact result, for all texts with the same symbols. When the text starts with a part of a word: it is set if and only if it can be, with
acceptable lines and no blank line. -/
theorem align_exact_all {rt : Runtime} (hrt : ∀ (i n : Nat) (c : Class), c ∈ rt.order i n) {env : Env} {l : LineBreaker F}
    {sp : Splitter} (hsp : Splits env l sp)
    {m : Measure} (hs : Setup l m) (tokens : List (List Rune)) (tks : List (List Span))
    (hst : List.Forall₂ (Strips rt env) tokens tks) (hne : tokens ≠ []) (L : List Piece) (hL : l.attrList = lv 0 L)
    (maxWidth : F) (W : Int) (hW : l.scale maxWidth = Arith.ofInt W) (hpos : 0 < W) (g : List Rune) (hg : Pads l.toOptions m g)
    (ht : Tol l.toOptions) (htame : TameOpts l) (hstart : StartsWithPart (syms (parBlocks sp tks)))
    (hB : lineWidth m (syms (parBlocks sp tks)) + m.hyphen + |W| ≤ Laws.bound F) :
    (¬ Settable m W (okRatio l.toOptions) (syms (parBlocks sp tks)) ∧
      ∀ tokens tks', List.Forall₂ (Strips rt env) tokens tks' → tokens ≠ [] → parBlocks sp tks' = parBlocks sp tks →
      leftAlignUniform rt env l tokens maxWidth = .ok (none, { l with attrList := lv 0 (L ++ parPieces sp tks') })) ∨
    (Settable m W (okRatio l.toOptions) (syms (parBlocks sp tks)) ∧
      ∃ segs lines, Layout (hyOf l) (Acceptable m W (okRatio l.toOptions)) false true (syms (parBlocks sp tks)) lines ∧
      List.Forall₂ (LineOf l) segs lines ∧
      boxes segs.flatten = boxes (parNodes l m L.length (parBlocks sp tks)) ∧
      (∀ z ∈ segs.flatten, z ∈ parNodes l m L.length (parBlocks sp tks)) ∧
      (∀ tokens tks', List.Forall₂ (Strips rt env) tokens tks' → tokens ≠ [] → parBlocks sp tks' = parBlocks sp tks →
      leftAlignUniform rt env l tokens maxWidth =
        .ok (some (renderSegs l (lv 0 (L ++ parPieces sp tks')) g segs (AState.iterator (lv 0 (L ++ parPieces sp tks')))),
          { l with attrList := lv 0 (L ++ parPieces sp tks') })) ∧
      (W ≤ 4997 → Acceptable m W (okRatio l.toOptions) true (syms (parBlocks sp tks)) none → lines.length = 1) ∧
      LayoutR (hyOf l) (fun f p s r => Acceptable m W (okRatio l.toOptions) f p s ∧
        Earliest (Acceptable m W (okRatio l.toOptions)) (looseness F m W) (syms (parBlocks sp tks)) f p s r) false true (syms (parBlocks sp tks)) lines) := by
  obtain ⟨T, hTd⟩ : ∃ T, T = parNodes l m L.length (parBlocks sp tks) := ⟨_, rfl⟩
  have hT : Para l m T := hTd ▸ para_parNodes hs L.length (parBlocks sp tks) (noSoft_par sp tks)
  have hsy : symsT T = syms (parBlocks sp tks) := by rw [hTd]; exact symsT_parNodes _ _
  have hroom : Room m T W := ⟨by rw [hsy]; exact hB⟩
  have hstart' : StartsWithPart (symsT T) := by rw [hsy]; exact hstart
  have hsl : startLine (syms (parBlocks sp tks)) = syms (parBlocks sp tks) := by
    obtain ⟨t, r, e⟩ := hstart; rw [e]; rfl
  obtain ⟨act, h1, h2, _⟩ := align_eq hsp hs tokens tks hst hne L hL maxWidth T hTd
  have h3 : ∀ tokens tks', List.Forall₂ (Strips rt env) tokens tks' → tokens ≠ [] → parBlocks sp tks' = parBlocks sp tks →
      leftAlignUniform rt env l tokens maxWidth = (match act.head? with
        | none => .ok (none, { l with attrList := lv 0 (L ++ parPieces sp tks') })
        | some a => do
          let lines ← render l.toOptions (lv 0 (L ++ parPieces sp tks')) (nds T) ((a.toPoint :: a.previous).reverse)
          .ok (some lines, { l with attrList := lv 0 (L ++ parPieces sp tks') })) := by
    intro tokens tks' a b c
    obtain ⟨act', e1, _, e3⟩ := align_eq hsp hs tokens tks' a b L hL maxWidth T (by rw [c]; exact hTd)
    rw [h1] at e1
    cases e1
    exact e3
  clear hst hne
  -- the search
  have hslt : findStartNode (nds T) 0 < T.length := by
    have := (para_start hT).1
    simpa [nds] using this
  have htl : (T.take (findStartNode (nds T) 0)).length = findStartNode (nds T) 0 := by simp; omega
  obtain ⟨act', k1, k2, k3, k4⟩ := loop_tight hs hT hroom (rootNB_of_start hT hstart') ht htame hpos rt hrt (T.drop (findStartNode (nds T) 0))
    (T.take (findStartNode (nds T) 0)) [rootPoint] (by simp) (by
      intro e; have := congrArg List.length e; simp at this; omega) (by omega) (by
      rw [htl]; exact inv_root hs hT hroom)
  rw [htl] at k1
  have e1 : (T.take (findStartNode (nds T) 0)).getLast?.map TN.node =
      (if findStartNode (nds T) 0 = 0 then none else (nds T)[findStartNode (nds T) 0 - 1]?) := by
    by_cases e : findStartNode (nds T) 0 = 0
    · rw [e]; simp
    · rw [if_neg e, List.getLast?_eq_getElem?, htl, List.getElem?_take]
      rw [if_pos (by omega)]
      simp [nds]
  have e2 : nds (T.drop (findStartNode (nds T) 0)) = (nds T).drop (findStartNode (nds T) 0) := by simp [nds]
  have e3 : sumAt (nds T) (findStartNode (nds T) 0) = Sums.zero := by
    have hwT := Room.width hs hroom
    rw [sumAt_sumsT hs hT hwT, List.drop_of_length_le (by omega)]; rfl
  rw [e1, e2, e3, ← hW, h1] at k1
  simp only [Except.ok.injEq] at k1
  subst k1
  cases hh : act.head? with
  | none =>
    left
    refine ⟨?_, fun tokens tks' a b c => by rw [h3 tokens tks' a b c, hh]⟩
    rintro ⟨lines, hl⟩
    rw [← acceptableIn_zero] at hl
    apply k3 (reach_of_layout hs hT (indent_of_start hT hstart') hl 0 Reach.root (by omega) (by rw [List.drop_zero, hsy, hsl]))
    cases act with
    | nil => rfl
    | cons a b => simp at hh
  | some a =>
    right
    obtain ⟨hch, hposa⟩ := h2 a (List.mem_of_mem_head? hh)
    obtain ⟨pts, hp1, hp2⟩ := chain_path_tight (T := T) hch a.toPoint a.previous [] rfl (k2 a (List.mem_of_mem_head? hh)).1
      (k2 a (List.mem_of_mem_head? hh)).2 (Path.nil _)
    rw [List.append_nil] at hp1
    simp only [hh] at h3
    rw [hp1] at h3
    have hz := chain_zero hch
    have hTl : (nds T).length = T.length := by simp [nds]
    have hlast : ∀ q, pts.getLast? = some q → q.position + 1 = T.length := by
      intro q hq
      have e : (rootPoint.toPoint :: pts).getLast? = some a.toPoint := by rw [← hp1]; simp
      cases pts with
      | nil => simp at hq
      | cons b bs =>
        rw [List.getLast?_cons_cons, hq] at e
        simp only [Option.some.injEq] at e
        rw [e]; omega
    have hne' : pts ≠ [] := by
      rintro rfl
      have e := congrArg List.getLast? hp1
      simp at e
      have : a.position = 0 := by rw [e]; rfl
      have := (para_start hT).2
      obtain ⟨c, y, w, hc, hy, _⟩ := first_box hT hstart'
      have hTlen : T.length = 1 := by omega
      have hlen1 : T.length = c.length + (w.length + 1) := by rw [hc]; simp
      have hc0 : c = [] := List.eq_nil_of_length_eq_zero (by omega)
      have hw0 : w = [] := List.eq_nil_of_length_eq_zero (by omega)
      have := ((hT.facts c y w hc).last hw0).2.1
      rw [this] at hy; cases hy
    have hmem : ∀ q ∈ pts, q.ratio = zero := by
      intro q hq
      refine (hz q ?_).2
      have : q ∈ (a.toPoint :: a.previous).reverse := by rw [hp1]; simp [hq]
      exact List.mem_reverse.mp this
    have hpath := hp2.and hmem
    have hlay := lines_layout hs hT.facts (T := T) (I := fun first p => if first then p = rootPoint.toPoint else TotAt m T p)
      (P := fun f p s r => Acceptable m W (okRatio l.toOptions) f p s ∧
        Earliest (Acceptable m W (okRatio l.toOptions)) (looseness F m W) (symsT T) f p s r) (o := l.toOptions) (ideal := l.scale maxWidth) false
      (fun p q h => h.1.1) (fun p q h => h.2)
      (fun p q h => by
        simp only [Bool.false_eq_true, if_false]
        exact step_tot hs hT hroom h.1.1)
      (by
        intro first p q c d x v hi hpq hc hpc hbox hd hq hcut
        obtain ⟨u', x', v', k1, k2, k3, k4, k5, k6⟩ := hpq.1.1
        have hul : u'.length = (c ++ d).length := by rw [← hq, k6]; rfl
        have hx' : x' = x.node := by
          have e1 : (nds T)[u'.length]? = some x' := by rw [k1]; simp
          have e2 : (nds T)[(c ++ d).length]? = some x.node := by rw [hc]; simp [nds]
          rw [hul, e2] at e1
          exact (Option.some.inj e1).symm
        subst hx'
        obtain ⟨y, d', rfl, hy⟩ := hd
        have hTc : T = c ++ y :: (d' ++ x :: v) := by rw [hc]; simp
        have hstart2 : findStartNode (nds T) 0 ≤ c.length := by
          have := findStartNode_le_box c y (d' ++ x :: v) 0 (Or.inl hy)
          rw [← hTc] at this; omega
        have hptot : p.totals = if first then Sums.zero else sumsT m (c.drop (findStartNode (nds T) 0)) := by
          cases first with
          | true => simp only [if_true] at hi ⊢; rw [hi]; rfl
          | false =>
            simp only [Bool.false_eq_true, if_false] at hi ⊢
            exact hi.2 c y _ hTc hpc hbox (Or.inl hy)
        have hr := ratio_at hs hT hroom (o := l.toOptions) c (y :: d') x v hc hstart2 hcut first p [] hptot _ _ rfl rfl
        rw [hul, hW] at k5
        have := (feas_iff ht _ rfl _ _ _ _ (by have := hr.2.1; rw [abs_le] at this; exact this.2) hr.2.2 hr.1).mp k5
        have hf0 : first = true → ∀ z ∈ c, z.node.kind ≠ .box := by
          intro e
          subst e
          simp only [if_true] at hi
          rw [hi] at hbox
          exact hbox
        refine ⟨acceptable_of_feas hT hstart' first c _ x v hc y d' rfl hy hf0 hcut this,
          earliest_of_early hs hT hroom hstart' first c _ x v hc y d' rfl hy hpc hbox hf0 hq hcut this ?_ hpq.1.2.2⟩
        rw [k6, hul, hW]
        show (ctxAt l.toOptions (nds T) (Arith.ofInt W) (c ++ y :: d').length x.node).cls ⟨p, []⟩ = _
        unfold Ctx.cls
        rw [hr.1]
        rfl)
      (by
        intro _ p q h
        exact h.1.2.1) pts rootPoint.toPoint true hpath (by simp) (by
        show 0 < T.length
        omega) hne' hlast
    have hpos0 : (rootPoint : BreakPoint F).toPoint.position = 0 := rfl
    rw [hpos0] at hlay
    rcases hlay with ⟨he, _⟩ | ⟨segs, lines, g1, g2, g3, g4, g5⟩
    · cases he
    · rw [List.drop_zero, hsy, hsl] at g2
      have g2' := LayoutR.layout (Q := Acceptable m W (okRatio l.toOptions)) (fun _ _ _ _ h => h.1) g2
      refine ⟨Layout.hy g2', segs, lines, g2', g3, ?_, ?_, ?_, ?_, g2⟩
      · rw [← hTd]; simpa using g4
      · rw [← hTd]; exact g5
      · intro tokens tks' a b c
        rw [h3 tokens tks' a b c]
        unfold render
        simp only [List.tail_cons]
        rw [g1, ok_bind, renderLoop_eq hs hg _ segs (fun x hx => rend_of_facts hT x (g5 x hx))]
        rfl
      · intro hone hacc
        rw [← hsy] at hacc
        have := k4 hone hstart' hacc a (List.mem_of_mem_head? hh)
        have hpl : pts.length = 1 := by
          have := congrArg List.length hp1
          rw [‹a.previous = _›] at this
          simpa using this.symm
        have hll := linesLoop_length _ _ _ _ g1
        rw [List.length_map] at hll
        rw [← g3.length_eq, hll, hpl]

/-- **The exact result.** When the text starts with a part of a word: it is set if and only if it can be, with
acceptable lines and no blank line. -/
theorem align_exact {rt : Runtime} (hrt : ∀ (i n : Nat) (c : Class), c ∈ rt.order i n) {env : Env} {l : LineBreaker F}
    {sp : Splitter} (hsp : Splits env l sp)
    {m : Measure} (hs : Setup l m) (tokens : List (List Rune)) (tks : List (List Span))
    (hst : List.Forall₂ (Strips rt env) tokens tks) (hne : tokens ≠ []) (L : List Piece) (hL : l.attrList = lv 0 L)
    (maxWidth : F) (W : Int) (hW : l.scale maxWidth = Arith.ofInt W) (hpos : 0 < W) (g : List Rune) (hg : Pads l.toOptions m g)
    (ht : Tol l.toOptions) (htame : TameOpts l) (hstart : StartsWithPart (syms (parBlocks sp tks)))
    (hB : lineWidth m (syms (parBlocks sp tks)) + m.hyphen + |W| ≤ Laws.bound F) :
    (¬ Settable m W (okRatio l.toOptions) (syms (parBlocks sp tks)) ∧
      leftAlignUniform rt env l tokens maxWidth = .ok (none, { l with attrList := lv 0 (L ++ parPieces sp tks) })) ∨
    (Settable m W (okRatio l.toOptions) (syms (parBlocks sp tks)) ∧
      ∃ segs lines, Layout (hyOf l) (Acceptable m W (okRatio l.toOptions)) false true (syms (parBlocks sp tks)) lines ∧
      List.Forall₂ (LineOf l) segs lines ∧
      boxes segs.flatten = boxes (parNodes l m L.length (parBlocks sp tks)) ∧
      (∀ z ∈ segs.flatten, z ∈ parNodes l m L.length (parBlocks sp tks)) ∧
      leftAlignUniform rt env l tokens maxWidth =
        .ok (some (renderSegs l (lv 0 (L ++ parPieces sp tks)) g segs (AState.iterator (lv 0 (L ++ parPieces sp tks)))),
          { l with attrList := lv 0 (L ++ parPieces sp tks) }) ∧
      (W ≤ 4997 → Acceptable m W (okRatio l.toOptions) true (syms (parBlocks sp tks)) none → lines.length = 1) ∧
      LayoutR (hyOf l) (fun f p s r => Acceptable m W (okRatio l.toOptions) f p s ∧
        Earliest (Acceptable m W (okRatio l.toOptions)) (looseness F m W) (syms (parBlocks sp tks)) f p s r) false true (syms (parBlocks sp tks)) lines) := by
  rcases align_exact_all hrt hsp hs tokens tks hst hne L hL maxWidth W hW hpos g hg ht htame hstart hB with
    ⟨h1, h2⟩ | ⟨h1, segs, lines, h2, h3, h4, h5, h6, h7⟩
  · exact Or.inl ⟨h1, h2 tokens tks hst hne rfl⟩
  · exact Or.inr ⟨h1, segs, lines, h2, h3, h4, h5, h6 tokens tks hst hne rfl, h7⟩

end Verif.Proofs.LB
