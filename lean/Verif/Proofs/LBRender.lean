import Verif.Proofs.LBLines

/-! # Rendering -/

set_option linter.unusedSectionVars false
set_option linter.unusedSimpArgs false

namespace Verif.Proofs.LB
open Verif.Go Verif.Model Verif.Model.LB Verif.Spec Verif.Spec.LB

variable {F : Type} [Arith F]

/-- The iterator after `n` calls of `Next`. -/
def adv (s : AState) : Nat → AIter → AIter
  | 0, i => i
  | n + 1, i => adv s n (i.next s).2

theorem adv_add (s : AState) (a b : Nat) (i : AIter) : adv s (a + b) i = adv s b (adv s a i) := by
  induction a generalizing i with
  | zero => simp [adv]
  | succ a ih => rw [show a + 1 + b = (a + b) + 1 by omega, adv, ih]; rfl

theorem adv_iterator (s : AState) (n : Nat) :
    adv s (n + 1) s.iterator = ⟨false, if n < s.length then some n else none⟩ := by
  induction n with
  | zero => rfl
  | succ n ih =>
    rw [adv_add, ih]
    by_cases h : n < s.length
    · simp [adv, AIter.next, h]
    · simp [adv, AIter.next, h, show ¬ n + 1 < s.length by omega]

/-- How many spaces are written: none for a glue without width, and the text `g` between two words. -/
structure Pads [Laws F] (o : Options F) (m : Measure) (g : List Rune) : Prop where
  small : m.space ≤ Laws.bound F
  none : repeatRunes space (Arith.toInt (o.downScale (Arith.ofInt 0 : F))) = .ok []
  gap : repeatRunes space (Arith.toInt (o.downScale (Arith.ofInt m.space : F))) = .ok g

/-- The text of a node. -/
def tnText (attrs : AState) (g : List Rune) (x : TN F) : List Rune :=
  match x.tag with
  | some (.part _) => renderBox attrs x.node []
  | some .gap => g
  | _ => []

/-- The text of the nodes of a line. -/
def segOut (l : LineBreaker F) (attrs : AState) (g : List Rune) (seg : List (TN F)) : List Rune :=
  seg.flatMap (tnText attrs g) ++ (seg.getLast?.map (fun x => endText l x.node)).getD []

/-- The lines written for nodes. -/
def renderSegs (l : LineBreaker F) (attrs : AState) (g : List Rune) : List (List (TN F)) → AIter → List (List Rune)
  | [], _ => []
  | seg :: rest, it =>
    let it' := adv attrs (boxes seg).length it
    it'.endOfLine attrs (it.startOfLine attrs [] ++ segOut l attrs g seg) :: renderSegs l attrs g rest it'

theorem renderBox_eq (attrs : AState) (x : Node F) (out : List Rune) :
    renderBox attrs x out = out ++ renderBox attrs x [] := by
  unfold renderBox
  cases x.attr with
  | none => simp [emit]
  | some k =>
    cases h : attrs[k]? with
    | none => simp [h]
    | some a => simp [h, render_eq]

variable [Laws F]

/-- What rendering uses of a node. -/
structure Rend (m : Measure) (x : TN F) : Prop where
  coh : x.node.sums = ⟨Arith.ofInt x.w, Arith.ofInt x.st, Arith.ofInt 0⟩
  st : |x.st| ≤ 10000
  box : x.node.kind = .box → (∃ t, x.tag = some (.part t)) ∧ x.node.attr.isSome = true
  glue : x.node.kind = .glue → (x.tag = some .gap ∧ x.w = m.space) ∨ (x.tag = none ∧ x.w = 0)
  pen : x.node.kind = .penalty → x.tag ≠ some .gap ∧ ∀ t, x.tag ≠ some (.part t)

theorem zero_lt_zero : Arith.lt (zero : F) zero = false := by
  have := Laws.lt_int (F := F) 0 0 (small 0 (by decide)) (small 0 (by decide))
  simpa [zero] using this

theorem glueText_eq {l : LineBreaker F} {m : Measure} {g : List Rune} (hs : Setup l m)
    (hg : Pads l.toOptions m g) (x : TN F) (hx : Rend m x) (hk : x.node.kind = .glue) (attrs : AState) :
    glueText l.toOptions zero x.node = .ok (tnText attrs g x) := by
  unfold glueText
  rw [zero_lt_zero]
  simp only [Bool.false_eq_true, if_false]
  have hst : |x.st| ≤ Laws.bound F := hx.st.trans ((by decide : (10000 : Int) ≤ 2 ^ 53).trans Laws.bound_large)
  have hsp := hs.space_nonneg
  rw [hx.coh]
  simp only
  rcases hx.glue hk with ⟨h1, h2⟩ | ⟨h1, h2⟩
  · have : |x.w| ≤ Laws.bound F := by rw [h2, abs_of_nonneg hsp]; exact hg.small
    rw [show (zero : F) = Arith.ofInt 0 from rfl, Laws.add_zero_mul _ _ this hst, h2, hg.gap]
    simp [tnText, h1]
  · have : |x.w| ≤ Laws.bound F := by rw [h2]; exact small 0 (by decide)
    rw [show (zero : F) = Arith.ofInt 0 from rfl, Laws.add_zero_mul _ _ this hst, h2, hg.none]
    simp [tnText, h1]

theorem nodesLoop_eq {l : LineBreaker F} {m : Measure} {g : List Rune} (hs : Setup l m)
    (hg : Pads l.toOptions m g) (attrs : AState) (seg : List (TN F)) (hr : ∀ x ∈ seg, Rend m x)
    (out : List Rune) (it : AIter) :
    nodesLoop l.toOptions attrs zero (nds seg) out it =
      .ok (out ++ segOut l attrs g seg, adv attrs (boxes seg).length it) := by
  induction seg generalizing out it with
  | nil => simp [nodesLoop, nds, segOut, boxes, adv]
  | cons x seg ih =>
    have hx := hr x (by simp)
    have ih' := ih (fun y hy => hr y (by simp [hy]))
    have e : nds (x :: seg) = x.node :: nds seg := rfl
    rw [e, nodesLoop]
    have hlast : ∀ (y : TN F) s, (y :: s : List (TN F)) ≠ [] → (x :: y :: s).getLast? = (y :: s).getLast? := by
      intro y s _; simp
    -- the text of the rest
    have hout : seg ≠ [] → segOut l attrs g (x :: seg) = tnText attrs g x ++ segOut l attrs g seg := by
      intro hne
      cases seg with
      | nil => exact absurd rfl hne
      | cons y s => simp [segOut]
    have hend : x.node.kind ≠ .penalty → endText l x.node = [] := by
      intro h; unfold endText; rw [if_neg (fun c => h c.1)]
    have hout1 : x.node.kind ≠ .penalty → segOut l attrs g (x :: seg) = tnText attrs g x ++ segOut l attrs g seg := by
      intro h
      cases seg with
      | nil => simp [segOut, hend h]
      | cons y s => exact hout (by simp)
    cases hk : x.node.kind with
    | box =>
      simp only
      obtain ⟨⟨t, ht⟩, ha⟩ := hx.box hk
      rw [ih', hout1 (by rw [hk]; simp), renderBox_eq]
      have e1 : boxes (x :: seg) = x :: boxes seg := by simp [boxes, hk]
      have e2 : tnText attrs g x = renderBox attrs x.node [] := by simp [tnText, ht]
      rw [e1, e2]
      simp [ha, adv]
    | glue =>
      simp only
      rw [glueText_eq hs hg x hx hk attrs]
      simp only [ok_bind, emit]
      rw [ih', hout1 (by rw [hk]; simp)]
      have e1 : boxes (x :: seg) = boxes seg := by simp [boxes, hk]
      rw [e1]
      simp
    | penalty =>
      simp only
      rw [ih']
      have e1 : boxes (x :: seg) = boxes seg := by simp [boxes, hk]
      have e2 : tnText attrs g x = [] := by
        obtain ⟨h1, h2⟩ := hx.pen hk
        unfold tnText
        cases ht : x.tag with
        | none => rfl
        | some s =>
          cases s with
          | part t => exact absurd ht (h2 t)
          | gap => exact absurd ht h1
          | _ => rfl
      rw [e1]
      congr 2
      cases seg with
      | nil =>
        simp only [segOut, List.flatMap_cons, List.flatMap_nil, e2, List.getLast?_singleton, Option.map_some,
          Option.getD_some, endText, hk, nds, List.map_nil, List.isEmpty_nil, Bool.and_true, List.getLast?_nil,
          Option.map_none, Option.getD_none, List.append_nil, List.nil_append, true_and]
        split
        · rfl
        · simp
      | cons y s =>
        rw [hout (by simp), e2]
        simp [nds]

theorem renderLoop_eq {l : LineBreaker F} {m : Measure} {g : List Rune} (hs : Setup l m)
    (hg : Pads l.toOptions m g) (attrs : AState) (segs : List (List (TN F))) (hr : ∀ x ∈ segs.flatten, Rend m x)
    (it : AIter) :
    renderLoop l.toOptions attrs (segs.map (fun s => (zero, nds s))) it = .ok (renderSegs l attrs g segs it) := by
  induction segs generalizing it with
  | nil => rfl
  | cons seg segs ih =>
    simp only [List.map_cons, renderLoop]
    rw [nodesLoop_eq hs hg attrs seg (fun x hx => hr x (by simp [hx]))]
    simp only [ok_bind]
    rw [ih (fun x hx => hr x (by rw [List.flatten_cons, List.mem_append]; exact Or.inr hx))]
    rfl

/-! ## Text without style -/

theorem renderSegs_plain {l : LineBreaker F} {g : List Rune} (L : List Piece) (hL : Plain L)
    (segs : List (List (TN F))) (lines : List Line) (h : List.Forall₂ (LineOf l) segs lines)
    (hn : ∀ x ∈ segs.flatten, x.node.kind = .box ↔ ∃ t, x.tag = some (.part t))
    (ht : ∀ x ∈ segs.flatten, ∀ t, x.tag = some (.part t) → renderBox (lv 0 L) x.node [] = t)
    (it : AIter) (hit : ∃ n b, it = ⟨b, n⟩) :
    renderSegs l (lv 0 L) g segs it = lines.map (Line.text g) := by
  induction h generalizing it with
  | nil => rfl
  | @cons seg line segs lines h1 h2 ih =>
    have hstart : ∀ (it : AIter) out, it.startOfLine (lv 0 L) out = out := by
      intro it out
      obtain ⟨b, n⟩ := it
      cases n with
      | none => rfl
      | some i => exact startOfLine_zero L i b ((hL.take (i + 1)).dep 0) out
    have hend : ∀ (it : AIter) out, it.endOfLine (lv 0 L) out = out := by
      intro it out
      obtain ⟨b, n⟩ := it
      cases n with
      | none => rfl
      | some i => exact endOfLine_zero L i b ((hL.take (i + 1)).dep 0) out
    rw [renderSegs]
    simp only [hstart, hend, List.nil_append, List.map_cons]
    rw [ih (fun x hx => hn x (by rw [List.flatten_cons, List.mem_append]; exact Or.inr hx))
      (fun x hx => ht x (by rw [List.flatten_cons, List.mem_append]; exact Or.inr hx)) _ ⟨_, _, rfl⟩]
    congr 1
    have hbody : ∀ d : List (TN F), (∀ x ∈ d, x ∈ seg) → d.flatMap (tnText (lv 0 L) g) = lineText g (symsT d) := by
      intro d
      induction d with
      | nil => intro _; rfl
      | cons x d ihd =>
        intro hd
        rw [List.flatMap_cons, ihd (fun y hy => hd y (by simp [hy])), symsT_cons]
        have hx : x ∈ (seg :: segs).flatten := by
          rw [List.flatten_cons, List.mem_append]; exact Or.inl (hd x (by simp))
        unfold tnText
        cases htag : x.tag with
        | none => rfl
        | some s =>
          cases s with
          | part t =>
            simp only [Option.toList, List.cons_append, List.nil_append, lineText]
            rw [ht x hx t htag]
          | _ => rfl
    rcases h1 with ⟨e1, e2⟩ | ⟨d, x, e1, hx1, hx2, e2⟩
    · subst e1 e2
      simp [segOut, Line.text, lineText]
    · subst e2
      unfold segOut Line.text
      rw [e1, List.flatMap_append, hbody d (fun y hy => by rw [e1]; simp [hy])]
      have : tnText (lv 0 L) g x = [] := by
        unfold tnText
        cases htag : x.tag with
        | none => rfl
        | some s =>
          cases s with
          | part t =>
            exfalso
            apply hx1
            refine (hn x ?_).mpr ⟨t, htag⟩
            rw [List.flatten_cons, List.mem_append, e1]; left; simp
          | gap => exact absurd htag hx2
          | _ => rfl
      simp [this]

end Verif.Proofs.LB
