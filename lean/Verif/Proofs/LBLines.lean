import Verif.Proofs.LBFacts

/-! # From break points to lines -/

set_option linter.unusedSectionVars false
set_option linter.unusedSimpArgs false

namespace Verif.Proofs.LB
open Verif.Go Verif.Model Verif.Model.LB Verif.Spec Verif.Spec.LB

variable {F : Type} [Arith F]

/-- Points reached one from the other. -/
inductive Path (R : Point F → Point F → Prop) : Point F → List (Point F) → Prop where
  | nil (p : Point F) : Path R p []
  | cons {p q : Point F} {rest : List (Point F)} : R p q → Path R q rest → Path R p (q :: rest)

theorem chain_path {l : Options F} {nodes : List (Node F)} {ideal : F} {ps : List (Point F)}
    (h : Chain l nodes ideal ps) : ∀ q rest tail, ps = q :: rest → Path (Step l nodes ideal) q tail →
      ∃ pts, ps.reverse ++ tail = rootPoint.toPoint :: pts ∧ Path (Step l nodes ideal) rootPoint.toPoint pts := by
  induction h with
  | root =>
    intro q rest tail he ht
    cases he
    exact ⟨tail, rfl, ht⟩
  | @cons p q rest' h1 h2 ih =>
    intro q' rest tail he ht
    cases he
    obtain ⟨pts, g1, g2⟩ := ih p rest' (q :: tail) rfl (Path.cons h2 ht)
    exact ⟨pts, by rw [← g1]; simp, g2⟩

/-- The text added at a place where a line may end. -/
def hyOf (l : LineBreaker F) (s : Sym) : List Rune :=
  if l.renderHyphens && Arith.eq (penOf l s) l.hyphenPenalty then hyphen else []

/-- What the last node of a line adds. -/
def endText (l : LineBreaker F) (x : Node F) : List Rune :=
  if x.kind = .penalty ∧ (l.renderHyphens && Arith.eq x.penalty l.hyphenPenalty) = true then hyphen else []

/-- Where a line that ends at `x` ends. -/
def stopSym (x : TN F) (v : List (TN F)) : Option Sym :=
  match x.tag with
  | some s => some s
  | none => (symsT v).head?

/-- What is left after a line that ends at `x`. -/
def restSym (x : TN F) (v : List (TN F)) : List Sym :=
  match x.tag with
  | some _ => symsT v
  | none => (symsT v).tail

theorem stop_rest (x : TN F) (v : List (TN F)) : symsT (x :: v) = (stopSym x v).toList ++ restSym x v := by
  rw [symsT_cons]
  unfold stopSym restSym
  cases x.tag with
  | some s => rfl
  | none => cases symsT v <;> rfl

/-- Layouts where the condition on a line also depends on what is left after it. -/
inductive LayoutR (hy : Sym → List Rune) (P : Bool → List Sym → Option Sym → List Sym → Prop) (blank : Bool) :
    Bool → List Sym → List Line → Prop where
  | last {first : Bool} (p : List Sym) : StartsWithPart p → P first p none [] →
      LayoutR hy P blank first p [⟨p, []⟩]
  | brk {first : Bool} (p : List Sym) (s : Sym) (h : List Rune) {rest : List Sym} {lines : List Line} :
      StartsWithPart p → (∀ t, s ≠ .part t) → (h = hy s ∨ (s = .gap ∧ h = [])) → P first p (some s) rest →
      LayoutR hy P blank false (startLine rest) lines →
      LayoutR hy P blank first (p ++ s :: rest) (⟨p, h⟩ :: lines)
  | blankLine {first : Bool} {syms : List Sym} {lines : List Line} : blank = true →
      LayoutR hy P blank false syms lines → LayoutR hy P blank first syms (⟨[], []⟩ :: lines)
  | lastBlank {first : Bool} : blank = true → LayoutR hy P blank first [] [⟨[], []⟩]
  | blankAfter {first : Bool} (p : List Sym) {lines : List Line} : blank = true → StartsWithPart p →
      P first p none [] → LayoutR hy P blank false [] lines →
      LayoutR hy P blank first p (⟨p, []⟩ :: lines)

theorem LayoutR.layout {hy : Sym → List Rune} {P : Bool → List Sym → Option Sym → List Sym → Prop}
    {Q : Bool → List Sym → Option Sym → Prop} {blank first : Bool} {ss : List Sym} {lines : List Line}
    (hPQ : ∀ f p s r, P f p s r → Q f p s) (h : LayoutR hy P blank first ss lines) : Layout hy Q blank first ss lines := by
  induction h with
  | last p h1 h2 => exact .last p h1 (hPQ _ _ _ _ h2)
  | brk p s h h1 h2 h3 h4 _ ih => exact .brk p s h h1 h2 h3 (hPQ _ _ _ _ h4) ih
  | blankLine h1 _ ih => exact .blankLine h1 ih
  | lastBlank h1 => exact .lastBlank h1
  | blankAfter p h1 h2 h3 _ ih => exact .blankAfter p h1 h2 (hPQ _ _ _ _ h3) ih

/-- A line of nodes and a line of symbols. -/
def LineOf (l : LineBreaker F) (seg : List (TN F)) (line : Line) : Prop :=
  (seg = [] ∧ line = ⟨[], []⟩) ∨
  ∃ d x, seg = d ++ [x] ∧ x.node.kind ≠ .box ∧ x.tag ≠ some .gap ∧ line = ⟨symsT d, endText l x.node⟩

/-- The boxes among nodes. -/
def boxes (ts : List (TN F)) : List (TN F) := ts.filter (fun x => decide (x.node.kind = .box))

theorem boxes_append (a b : List (TN F)) : boxes (a ++ b) = boxes a ++ boxes b := by simp [boxes]

variable [Laws F]

section
variable {l : LineBreaker F} {m : Measure} (hs : Setup l m) {T : List (TN F)}
  (hT : ∀ u x v, T = u ++ x :: v → Facts l m (u.getLast?.map TN.node) (sumSt u) x v) (hne : T ≠ [])
include hT

theorem startLine_nonparts (a : List (TN F)) (h : ∀ x ∈ a, ∀ t, x.tag ≠ some (.part t)) (b : List Sym) :
    startLine (symsT a ++ b) = startLine b := by
  induction a with
  | nil => rfl
  | cons x a ih =>
    have h' := ih (fun y hy => h y (by simp [hy]))
    rw [symsT_cons, List.append_assoc]
    cases hx : x.tag with
    | none => simpa using h'
    | some s =>
      cases s with
      | part t => exact absurd hx (h x (by simp) t)
      | _ => simpa [startLine] using h'

/-- The nodes skipped at the start of a line: up to a box or the last node. -/
theorem skip_split (u v : List (TN F)) (h : T = u ++ v) (hv : v ≠ []) :
    ∃ a y w, v = a ++ y :: w ∧ (∀ x ∈ a, x.node.kind ≠ .box) ∧
      (∀ x ∈ a, ∀ t, x.tag ≠ some (.part t)) ∧ (y.node.kind = .box ∨ w = []) ∧
      skipNodes u.length (nds T) = .ok (u.length + a.length) := by
  have key : ∀ (v u : List (TN F)) (j : Nat), T = u ++ v → v ≠ [] →
      ∃ a y w, v = a ++ y :: w ∧ (∀ x ∈ a, x.node.kind ≠ .box) ∧
        (∀ x ∈ a, ∀ t, x.tag ≠ some (.part t)) ∧ (y.node.kind = .box ∨ w = []) ∧
        skipLoop (nds v) j = some (j + a.length) := by
    intro v
    induction v with
    | nil => intro u j _ h; exact absurd rfl h
    | cons x v ih =>
      intro u j hu _
      have hf := hT u x v hu
      by_cases hk : x.node.kind = .box
      · exact ⟨[], x, v, rfl, by simp, by simp, Or.inl hk, by simp [nds, skipLoop, hk]⟩
      · by_cases hfo : x.node.isForcedBreak = true
        · exact ⟨[], x, v, rfl, by simp, by simp, Or.inr (hf.forced.mp hfo), by simp [nds, skipLoop, hfo]⟩
        · have hv : v ≠ [] := fun e => hfo (hf.forced.mpr e)
          obtain ⟨a, y, w, g1, g2, g3, g4, g5⟩ := ih (u ++ [x]) (j + 1) (by rw [hu]; simp) hv
          refine ⟨x :: a, y, w, by rw [g1]; rfl, ?_, ?_, g4, ?_⟩
          · intro z hz
            simp only [List.mem_cons] at hz
            rcases hz with rfl | hz
            · exact hk
            · exact g2 z hz
          · intro z hz
            simp only [List.mem_cons] at hz
            rcases hz with rfl | hz
            · exact hf.nonbox hk
            · exact g3 z hz
          · simp only [nds, List.map_cons, skipLoop]
            rw [if_neg (by simp [hk, hfo])]
            have : skipLoop (nds v) (j + 1) = some (j + 1 + a.length) := g5
            simp only [nds] at this
            rw [this]
            simp; omega
  obtain ⟨a, y, w, g1, g2, g3, g4, g5⟩ := key v u 0 h hv
  refine ⟨a, y, w, g1, g2, g3, g4, ?_⟩
  unfold skipNodes
  have hl : (nds T).length = T.length := by simp [nds]
  have hTl : T.length = u.length + v.length := by rw [h]; simp
  rw [slice_ok (by omega) (by omega)]
  simp only [ok_bind]
  have : ((nds T).drop u.length).take ((nds T).length - u.length) = nds v := by
    rw [List.take_of_length_le (by simp)]
    rw [h]; simp [nds]
  rw [this, g5]
  simp

/-- The facts on a place where a line ends. -/
theorem step_cut {o : Options F} {ideal : F} {p q : Point F} (h : Step o (nds T) ideal p q) :
    ∃ u x v, T = u ++ x :: v ∧ q.position = u.length ∧ p.position < u.length ∧
      Cut l m (sumSt u) x v ∧ Facts l m (u.getLast?.map TN.node) (sumSt u) x v := by
  obtain ⟨u', x', v', h1, h2, _, h3, _, h5⟩ := h
  have hlen : u'.length < T.length := by
    have := congrArg List.length h1
    simp [nds] at this; omega
  have e : T = T.take u'.length ++ T[u'.length] :: T.drop (u'.length + 1) := by
    rw [List.getElem_cons_drop]; simp
  have hu : nds (T.take u'.length) = u' := by
    have : nds (T.take u'.length) = (nds T).take u'.length := by simp [nds]
    rw [this, h1]; simp
  have hx : (T[u'.length]).node = x' := by
    have : (nds T)[u'.length]? = some x' := by rw [h1]; simp
    simp only [nds, List.getElem?_map] at this
    rw [List.getElem?_eq_getElem hlen] at this
    simpa using this
  have hul : (T.take u'.length).length = u'.length := by simp; omega
  have hf := hT _ _ _ e
  refine ⟨_, _, _, e, ?_, by omega, hf.legal ?_, hf⟩
  · rw [hul, h5]; rfl
  · have : (T.take u'.length).getLast?.map TN.node = u'.getLast? := by
      conv_rhs => rw [← hu]
      exact List.getLast?_map.symm
    rw [this, hx]; exact h2

include hs in
theorem final_end : ∀ x v u, T = u ++ x :: v → v = [] → endText l x.node = [] := by
  intro x v u h hv
  have := ((hT u x v h).last hv).2.1
  unfold endText
  rw [if_neg]
  rintro ⟨_, h2⟩
  simp only [Bool.and_eq_true] at h2
  rw [this] at h2
  have h3 := h2.2
  simp only [newPenalty] at h3
  rw [Laws.eq_comm, hs.minus] at h3
  cases h3

include hs in
/-- **From break points to lines**: the lines of a path that reaches the last node. `blank` may be false when
there is a box between two points of the path. -/
theorem lines_layout {R : Point F → Point F → Prop} {I : Bool → Point F → Prop}
    {P : Bool → List Sym → Option Sym → List Sym → Prop} {o : Options F} {ideal : F} (blank : Bool)
    (hR : ∀ p q, R p q → Step o (nds T) ideal p q) (hz : ∀ p q, R p q → q.ratio = zero)
    (hI : ∀ p q, R p q → I false q)
    (hP : ∀ first p q c d x v, I first p → R p q → T = c ++ d ++ x :: v → p.position ≤ c.length →
      (∀ y ∈ (c.drop p.position), y.node.kind ≠ .box) → (∃ y d', d = y :: d' ∧ y.node.kind = .box) →
      q.position = (c ++ d).length → Cut l m (sumSt (c ++ d)) x v → P first (symsT d) (stopSym x v) (restSym x v))
    (hb : blank = false → ∀ p q, R p q → ∃ c y d, T = c ++ y :: d ∧ y.node.kind = .box ∧ p.position ≤ c.length ∧
      c.length < q.position)
    (pts : List (Point F)) (p : Point F) (first : Bool) (hp : Path R p pts) (hi : I first p)
    (hlt : p.position < T.length) (hpts : pts ≠ [])
    (hlast : ∀ q, pts.getLast? = some q → q.position + 1 = T.length) :
    (blank = true ∧ linesLoop (nds T) pts p.position = .error .slice) ∨
    ∃ segs lines, linesLoop (nds T) pts p.position = .ok (segs.map (fun s => (zero, nds s))) ∧
      LayoutR (hyOf l) P blank first (startLine (symsT (T.drop p.position))) lines ∧
      List.Forall₂ (LineOf l) segs lines ∧
      boxes segs.flatten = boxes (T.drop p.position) ∧ ∀ z ∈ segs.flatten, z ∈ T := by
  induction pts generalizing p first with
  | nil => exact absurd rfl hpts
  | cons q rest ih =>
    cases hp with
    | cons hpq hrest =>
    have hstep := hR p q hpq
    obtain ⟨u, x, v, hu, hqu, hpu, hcut, hfx⟩ := step_cut hT hstep
    -- the start of the line
    have hsp : T = T.take p.position ++ T.drop p.position := by simp
    have hdne : T.drop p.position ≠ [] := by
      intro e; have := congrArg List.length e; simp at this; omega
    have htl : (T.take p.position).length = p.position := by simp; omega
    obtain ⟨a, y, w, g1, g2, g3, g4, g5⟩ := skip_split hT _ _ hsp hdne
    rw [htl] at g5
    have hTlen : T.length = u.length + (v.length + 1) := by rw [hu]; simp
    have hTa : T = T.take p.position ++ a ++ y :: w := by rw [List.append_assoc, ← g1]; simp
    have hlen2 : T.length = p.position + a.length + (w.length + 1) := by
      have := congrArg List.length hTa
      simp only [List.length_append, List.length_cons, htl] at this
      omega
    have hsl : startLine (symsT (T.drop p.position)) = startLine (symsT (y :: w)) := by
      rw [g1, symsT_append]
      exact startLine_nonparts hT a g3 _
    have hba : boxes a = [] := by
      unfold boxes
      rw [List.filter_eq_nil_iff]
      intro z hz
      simp [g2 z hz]
    have hqlt : q.position < T.length := by omega
    -- the loop
    have hloop : ∀ seg, slice (nds T) ((p.position + a.length : Nat) : Int) ((q.position : Int) + 1) = .ok (nds seg) →
        ∀ R' : Res (List (F × List (Node F))), linesLoop (nds T) rest q.position = R' →
        linesLoop (nds T) (q :: rest) p.position = R' >>= fun ls => .ok ((zero, nds seg) :: ls) := by
      intro seg hseg R' hR'
      rw [linesLoop, g5]
      simp only [ok_bind]
      rw [hseg, ok_bind, hR', hz p q hpq]
      rfl
    -- the rest of the lines
    have hih : rest ≠ [] → ((blank = true ∧ linesLoop (nds T) rest q.position = .error .slice) ∨
        ∃ segs lines, linesLoop (nds T) rest q.position = .ok (segs.map (fun s => (zero, nds s))) ∧
          LayoutR (hyOf l) P blank false (startLine (symsT (T.drop q.position))) lines ∧
          List.Forall₂ (LineOf l) segs lines ∧ boxes segs.flatten = boxes (T.drop q.position) ∧
          ∀ z ∈ segs.flatten, z ∈ T) := by
      intro hne
      refine ih q false hrest (hI p q hpq) hqlt hne ?_
      intro z hz
      apply hlast
      cases rest with
      | nil => exact absurd rfl hne
      | cons r rs => simpa using hz
    have hrestnil : rest = [] → v = [] := by
      intro e
      subst e
      have := hlast q (by simp)
      have : v.length = 0 := by omega
      exact List.length_eq_zero_iff.mp this
    have hdropq : T.drop q.position = x :: v := by rw [hqu, hu]; simp
    by_cases hcase : q.position + 1 < p.position + a.length
    · -- beyond the break point: panic
      left
      have hbt : blank = true := by
        cases hbl : blank with
        | true => rfl
        | false =>
          exfalso
          obtain ⟨c, z, d, k1, k2, k3, k4⟩ := hb hbl p q hpq
          have hmem : z ∈ a := by
            have e1 : a[c.length - p.position]? = some z := by
              have e2 : T[c.length]? = some z := by rw [k1]; simp
              rw [hTa, List.getElem?_append_left (by simp [htl]; omega), List.getElem?_append_right (by omega), htl] at e2
              exact e2
            exact List.mem_of_getElem? e1
          exact g2 z hmem k2
      refine ⟨hbt, ?_⟩
      rw [linesLoop, g5]
      simp only [ok_bind]
      unfold slice
      rw [if_neg (by omega)]
      rfl
    · by_cases hcase2 : q.position + 1 = p.position + a.length
      · -- an empty line
        have hbt : blank = true := by
          cases hbl : blank with
          | true => rfl
          | false =>
            exfalso
            obtain ⟨c, z, d, k1, k2, k3, k4⟩ := hb hbl p q hpq
            have hmem : z ∈ a := by
              have e1 : a[c.length - p.position]? = some z := by
                have e2 : T[c.length]? = some z := by rw [k1]; simp
                rw [hTa, List.getElem?_append_left (by simp [htl]; omega), List.getElem?_append_right (by omega), htl] at e2
                exact e2
              exact List.mem_of_getElem? e1
            exact g2 z hmem k2
        have hrne : rest ≠ [] := by
          intro e
          have := hrestnil e
          subst this
          simp at hTlen; omega
        have hseg : slice (nds T) ((p.position + a.length : Nat) : Int) ((q.position : Int) + 1) = .ok (nds []) := by
          have : ((q.position : Int) + 1) = ((p.position + a.length : Nat) : Int) := by omega
          rw [this, slice_ok (by omega) (by simp [nds]; omega)]
          simp [nds]
        have hxa : x :: v = [x] ++ (y :: w) ∧ x ∈ a := by
          have e1 : T.drop q.position = a.drop (q.position - p.position) ++ y :: w := by
            have e2 : T.drop q.position = (T.drop p.position).drop (q.position - p.position) := by
              rw [List.drop_drop]; congr 1; omega
            rw [e2, g1, List.drop_append_of_le_length (by omega)]
          have e3 : (a.drop (q.position - p.position)).length = 1 := by simp; omega
          obtain ⟨z, hz⟩ := List.length_eq_one_iff.mp e3
          rw [hz, hdropq] at e1
          have : x = z := by simpa using (List.cons.inj e1).1
          refine ⟨by rw [e1, this], ?_⟩
          rw [this]
          apply List.mem_of_mem_drop (i := q.position - p.position)
          rw [hz]; simp
        rcases hih hrne with ⟨h1, h2⟩ | ⟨segs, lines, h1, h2, h3, h4, h5⟩
        · left
          refine ⟨h1, ?_⟩
          rw [hloop [] hseg _ h2]; rfl
        · right
          refine ⟨[] :: segs, ⟨[], []⟩ :: lines, ?_, ?_, ?_, ?_, ?_⟩
          · rw [hloop [] hseg _ h1]; rfl
          · refine LayoutR.blankLine hbt ?_
            rw [hsl]
            have : startLine (symsT (T.drop q.position)) = startLine (symsT (y :: w)) := by
              rw [hdropq, hxa.1, symsT_append]
              refine startLine_nonparts hT [x] ?_ _
              intro z hz
              simp at hz; subst hz
              exact g3 _ hxa.2
            rw [← this]; exact h2
          · exact List.Forall₂.cons (Or.inl ⟨rfl, rfl⟩) h3
          · rw [List.flatten_cons, List.nil_append, h4, hdropq, hxa.1, g1, boxes_append, boxes_append, hba]
            have : boxes [x] = [] := by
              unfold boxes
              simp [g2 x hxa.2]
            rw [this]
          · simpa using h5
      · -- a line
        have hge : p.position + a.length ≤ q.position := by omega
        -- the nodes of the line before `x`
        obtain ⟨d, hd⟩ : ∃ d, d = u.drop (p.position + a.length) := ⟨_, rfl⟩
        obtain ⟨c, hc⟩ : ∃ c, c = T.take p.position ++ a := ⟨_, rfl⟩
        have hcl : c.length = p.position + a.length := by rw [hc]; simp [htl]
        have hcu : c ++ d = u := by
          have : c = u.take (p.position + a.length) := by
            have e1 : T.take (p.position + a.length) = c := by
              rw [hTa, ← hc, ← hcl]; simp
            rw [← e1, hu, List.take_append_of_le_length (by omega)]
          rw [this, hd]; simp
        have hTcd : T = c ++ d ++ x :: v := by rw [hcu]; exact hu
        have hdx : y :: w = d ++ x :: v := by
          have e1 : c ++ y :: w = c ++ (d ++ x :: v) := by
            rw [← List.append_assoc, ← hTcd, hc]; exact hTa.symm
          exact List.append_cancel_left e1
        have hseg : slice (nds T) ((p.position + a.length : Nat) : Int) ((q.position : Int) + 1) = .ok (nds (d ++ [x])) := by
          have e0 : ((q.position : Int) + 1) = ((q.position + 1 : Nat) : Int) := by omega
          rw [e0, slice_ok (by omega) (by simp [nds]; omega)]
          have : ((nds T).drop (p.position + a.length)).take (q.position + 1 - (p.position + a.length)) = nds (d ++ [x]) := by
            have e1 : (nds T).drop (p.position + a.length) = nds (d ++ [x]) ++ nds v := by
              rw [hTcd]
              have : nds (c ++ d ++ x :: v) = nds c ++ (nds (d ++ [x]) ++ nds v) := by simp [nds]
              rw [this, ← hcl]
              have : c.length = (nds c).length := by simp [nds]
              rw [this, List.drop_left]
            have e2 : q.position + 1 - (p.position + a.length) = (nds (d ++ [x])).length := by
              have := congrArg List.length hcu
              simp [nds] at this ⊢; omega
            rw [e1, e2, List.take_left]
          rw [this]
        have hmemT : ∀ z ∈ d ++ [x], z ∈ T := by
          intro z hz
          rw [hTcd]
          simp only [List.mem_append, List.mem_cons, List.mem_singleton] at hz ⊢
          rcases hz with hz | hz
          · exact Or.inl (Or.inr hz)
          · exact Or.inr (Or.inl (by simpa using hz))
        have hflat : ∀ segs : List (List (TN F)), (∀ z ∈ segs.flatten, z ∈ T) →
            ∀ z ∈ ((d ++ [x]) :: segs).flatten, z ∈ T := by
          intro segs h z hz
          rw [List.flatten_cons, List.mem_append] at hz
          exact hz.elim (hmemT z) (h z)
        have hxbox : x.node.kind ≠ .box := by
          cases hcut with
          | final _ _ h _ _ _ => rw [h]; simp
          | pen s _ _ h _ _ _ => rw [h]; simp
          | gap r _ _ _ h => rcases h with ⟨h, _⟩ | ⟨h, _⟩ <;> rw [h] <;> simp
          | fin y _ _ _ _ h _ _ => rw [h]; simp
        have hxgap : x.tag ≠ some .gap := by
          cases hcut with
          | final _ h _ _ _ _ => rw [h]; simp
          | pen s h1 h2 _ _ _ _ => rw [h1]; rcases h2 with rfl | rfl | rfl <;> simp
          | gap r h _ _ _ => rw [h]; simp
          | fin y h _ _ _ _ _ _ => rw [h]; simp
        have hlineof : LineOf l (d ++ [x]) ⟨symsT d, endText l x.node⟩ := Or.inr ⟨d, x, rfl, hxbox, hxgap, rfl⟩
        have hcut' : Cut l m (sumSt (c ++ d)) x v := by rw [hcu]; exact hcut
        have hbx : boxes [x] = [] := by unfold boxes; simp [hxbox]
        have hboxes : ∀ rs, boxes rs = boxes v → boxes ((d ++ [x]) ++ rs) = boxes (T.drop p.position) := by
          intro rs hrs
          have e1 : boxes (x :: v) = boxes v := by
            rw [show x :: v = [x] ++ v from rfl, boxes_append, hbx]; rfl
          rw [g1, hdx, boxes_append, boxes_append, boxes_append, boxes_append, hba, hrs, hbx, e1]
          simp
        rcases d with _ | ⟨y', d'⟩
        · -- the line has only the last node
          have hyx : y = x ∧ w = v := by simpa using hdx
          have hyl : w = [] := by
            rcases g4 with g4 | g4
            · rw [hyx.1] at g4; exact absurd g4 hxbox
            · exact g4
          have hv : v = [] := by rw [← hyx.2]; exact hyl
          have hrn : rest = [] := by
            cases hrest with
            | nil => rfl
            | cons h1 _ =>
              obtain ⟨u2, x2, v2, k1, k2, k3, _⟩ := step_cut hT (hR _ _ h1)
              have := congrArg List.length k1
              subst hv
              simp at this hTlen
              omega
          have hbt : blank = true := by
            cases hbl : blank with
            | true => rfl
            | false =>
              exfalso
              obtain ⟨c', z, d2, k1, k2, k3, k4⟩ := hb hbl p q hpq
              have hql : q.position = p.position + a.length := by
                have := congrArg List.length hcu
                simp at this; omega
              have hmem : z ∈ a := by
                have e1 : a[c'.length - p.position]? = some z := by
                  have e2 : T[c'.length]? = some z := by rw [k1]; simp
                  rw [hTa, List.getElem?_append_left (by simp [htl]; omega), List.getElem?_append_right (by omega), htl] at e2
                  exact e2
                exact List.mem_of_getElem? e1
              exact g2 z hmem k2
          right
          subst hrn
          have hsy : startLine (symsT (y :: w)) = [] := by
            rw [hyx.1, hyl, symsT_cons, ((hfx).last hv).1]; rfl
          refine ⟨[[] ++ [x]], [⟨symsT ([] : List (TN F)), endText l x.node⟩], ?_, ?_, ?_, ?_, ?_⟩
          · rw [hloop _ hseg _ (by rfl)]; rfl
          · rw [hsl, hsy, final_end hs hT x v u hu hv]
            exact LayoutR.lastBlank hbt
          · exact List.Forall₂.cons hlineof List.Forall₂.nil
          · simpa using hboxes [] (by rw [hv])
          · simpa using hmemT
        · -- the line starts with a box
          have hyy : y' = y := by simpa using (List.cons.inj hdx).1.symm
          have hybox : y.node.kind = .box := by
            rcases g4 with g4 | g4
            · exact g4
            · rw [g4] at hdx; simp at hdx
          have hpl := hP first p q c (y' :: d') x v hi hpq hTcd (by omega) (by
            intro z hz
            rw [hc, List.drop_append_of_le_length (by omega), List.drop_of_length_le (by omega), List.nil_append] at hz
            exact g2 z hz) ⟨y', d', rfl, by rw [hyy]; exact hybox⟩ (by rw [hcu]; exact hqu) hcut'
          obtain ⟨t, k, ht, _⟩ := (hT c y w (by rw [hc]; exact hTa)).box hybox
          have hsp : StartsWithPart (symsT (y' :: d')) := by
            refine ⟨t, symsT d', ?_⟩
            rw [symsT_cons, hyy, ht]; rfl
          have hsyms : startLine (symsT (y :: w)) = symsT (y' :: d') ++ symsT (x :: v) := by
            rw [hdx, symsT_append]
            obtain ⟨t', r', e⟩ := hsp
            rw [e]; rfl
          rw [hsl, hsyms]
          -- where the line ends
          cases hcut with
          | final k1 k2 k3 k4 k5 k6 =>
            have hrn : rest = [] := by
              cases hrest with
              | nil => rfl
              | cons h1 _ =>
                obtain ⟨u2, x2, v2, e1, e2, e3, _⟩ := step_cut hT (hR _ _ h1)
                have := congrArg List.length e1
                rw [k1] at hTlen
                simp at this hTlen
                omega
            subst hrn
            right
            refine ⟨[(y' :: d') ++ [x]], [⟨symsT (y' :: d'), endText l x.node⟩], ?_, ?_, ?_, ?_, ?_⟩
            · rw [hloop _ hseg _ (by rfl)]; rfl
            · have e1 : symsT (x :: v) = [] := by rw [symsT_cons, k2, k1]; rfl
              rw [e1, List.append_nil, final_end hs hT x v u hu k1]
              refine LayoutR.last _ hsp ?_
              have : stopSym x v = none := by unfold stopSym; rw [k2, k1]; rfl
              have hr : restSym x v = [] := by unfold restSym; rw [k2, k1]; rfl
              rw [← this, ← hr]; exact hpl
            · exact List.Forall₂.cons hlineof List.Forall₂.nil
            · simpa using hboxes [] (by rw [k1])
            · simpa using hmemT
          | pen s k1 k2 k3 k4 k5 k6 =>
            have hvne : v ≠ [] := by
              intro e
              have := (hfx.last e).1
              rw [k1] at this; cases this
            have hrne : rest ≠ [] := fun e => hvne (hrestnil e)
            rcases hih hrne with ⟨h1, h2⟩ | ⟨segs, lines, h1, h2, h3, h4, h5⟩
            · left
              refine ⟨h1, ?_⟩
              rw [hloop _ hseg _ h2]; rfl
            · right
              refine ⟨((y' :: d') ++ [x]) :: segs, ⟨symsT (y' :: d'), endText l x.node⟩ :: lines, ?_, ?_, ?_, ?_, ?_⟩
              · rw [hloop _ hseg _ h1]; rfl
              · have e1 : symsT (x :: v) = s :: symsT v := by rw [symsT_cons, k1]; rfl
                rw [e1]
                have hnp : ∀ t, s ≠ .part t := by rcases k2 with rfl | rfl | rfl <;> simp
                refine LayoutR.brk _ s _ hsp hnp (Or.inl ?_) ?_ ?_
                · unfold endText hyOf
                  rw [k3, k4]; simp
                · have : stopSym x v = some s := by unfold stopSym; rw [k1]
                  have hr : restSym x v = symsT v := by unfold restSym; rw [k1]
                  rw [← this, ← hr]; exact hpl
                · have : startLine (symsT (T.drop q.position)) = startLine (symsT v) := by
                    rw [hdropq, e1]
                    rcases k2 with rfl | rfl | rfl <;> rfl
                  rw [← this]; exact h2
              · exact List.Forall₂.cons hlineof h3
              · rw [List.flatten_cons]
                apply hboxes
                rw [h4, hdropq, show x :: v = [x] ++ v from rfl, boxes_append, hbx]; rfl
              · exact hflat segs h5
          | gap r k1 k2 k3 k4 =>
            have hvne : v ≠ [] := by rintro rfl; simp [symsT] at k2
            have hrne : rest ≠ [] := fun e => hvne (hrestnil e)
            rcases hih hrne with ⟨h1, h2⟩ | ⟨segs, lines, h1, h2, h3, h4, h5⟩
            · left
              refine ⟨h1, ?_⟩
              rw [hloop _ hseg _ h2]; rfl
            · right
              refine ⟨((y' :: d') ++ [x]) :: segs, ⟨symsT (y' :: d'), endText l x.node⟩ :: lines, ?_, ?_, ?_, ?_, ?_⟩
              · rw [hloop _ hseg _ h1]; rfl
              · have e1 : symsT (x :: v) = .gap :: r := by rw [symsT_cons, k1, k2]; rfl
                rw [e1]
                refine LayoutR.brk _ .gap _ hsp (by simp) ?_ ?_ ?_
                · unfold endText hyOf
                  rcases k4 with ⟨k4, _⟩ | ⟨k4, k5, _⟩
                  · right; rw [k4]; simp
                  · left; rw [k4, k5]; simp [penOf]
                · have : stopSym x v = some .gap := by unfold stopSym; rw [k1, k2]; rfl
                  have hr : restSym x v = r := by unfold restSym; rw [k1, k2]; rfl
                  rw [← this, ← hr]; exact hpl
                · have : startLine (symsT (T.drop q.position)) = startLine r := by
                    rw [hdropq, e1]; rfl
                  rw [← this]; exact h2
              · exact List.Forall₂.cons hlineof h3
              · rw [List.flatten_cons]
                apply hboxes
                rw [h4, hdropq, show x :: v = [x] ++ v from rfl, boxes_append, hbx]; rfl
              · exact hflat segs h5
          | fin z k1 k2 k3 k4 k5 k6 k7 =>
            have hvne : v ≠ [] := by rw [k2]; simp
            have hrne : rest ≠ [] := fun e => hvne (hrestnil e)
            have hbt : blank = true := by
              cases hbl : blank with
              | true => rfl
              | false =>
                exfalso
                obtain ⟨q2, rest2, e⟩ : ∃ q2 rest2, rest = q2 :: rest2 := List.exists_cons_of_ne_nil hrne
                subst e
                cases hrest with
                | cons h1 _ =>
                obtain ⟨c', z', d2, j1, j2, j3, j4⟩ := hb hbl q q2 h1
                obtain ⟨u2, x2, v2, e1, e2, e3, _⟩ := step_cut hT (hR _ _ h1)
                have l1 := congrArg List.length e1
                have l2 := congrArg List.length j1
                rw [k2] at hTlen
                simp at l1 l2 hTlen
                have : c'.length = u.length := by omega
                have e3 : T[u.length]? = some z' := by rw [j1, ← this]; simp
                rw [hu] at e3
                simp at e3
                rw [e3] at hxbox
                exact hxbox j2
            rcases hih hrne with ⟨h1, h2⟩ | ⟨segs, lines, h1, h2, h3, h4, h5⟩
            · left
              refine ⟨h1, ?_⟩
              rw [hloop _ hseg _ h2]; rfl
            · right
              refine ⟨((y' :: d') ++ [x]) :: segs, ⟨symsT (y' :: d'), endText l x.node⟩ :: lines, ?_, ?_, ?_, ?_, ?_⟩
              · rw [hloop _ hseg _ h1]; rfl
              · have e1 : symsT (x :: v) = [] := by rw [symsT_cons, k1, k2, symsT_cons, k3]; rfl
                rw [e1, List.append_nil]
                have e2 : endText l x.node = [] := by
                  unfold endText; rw [k5]; simp
                rw [e2]
                refine LayoutR.blankAfter _ hbt hsp ?_ ?_
                · have : stopSym x v = none := by
                    unfold stopSym; rw [k1, k2, symsT_cons, k3]; rfl
                  have hr : restSym x v = [] := by
                    unfold restSym; rw [k1, k2, symsT_cons, k3]; rfl
                  rw [← this, ← hr]; exact hpl
                · have : startLine (symsT (T.drop q.position)) = [] := by
                    rw [hdropq, e1]; rfl
                  rw [← this]; exact h2
              · exact List.Forall₂.cons hlineof h3
              · rw [List.flatten_cons]
                apply hboxes
                rw [h4, hdropq, show x :: v = [x] ++ v from rfl, boxes_append, hbx]; rfl
              · exact hflat segs h5

end

end Verif.Proofs.LB
