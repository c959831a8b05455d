import Verif.Model.Shared
import Verif.Props.Attributes
import Mathlib.Data.List.Induction

/-! # C114: renderers that are shared

`Push` writes the level into the renderer of the caller. Levels are right for renderers that are pushed once; the exact
levels are given for renderers that are pushed again. -/

namespace Verif.Props
open Verif.Go Verif.Model Verif.Model.LB Verif.Spec

/-- The piece of text shown by a renderer. -/
def pieceOf (a : Attribute) : Piece := ⟨a.text, a.start, a.stop⟩

/-- The number of styles open at the piece `k`: those opened up to it, minus those closed before it. -/
def openAt (l : List Piece) (k : Nat) : Int := (starts (l.take (k + 1)) : Int) - stops (l.take k)

theorem openAt_dep (l : List Piece) (k : Nat) (p : Piece) (h : l[k]? = some p) :
    openAt l k = dep 0 (l.take k) + (if p.start = [] then 0 else 1) := by
  unfold openAt
  rw [dep_count]
  have e : starts (l.take (k + 1)) = starts (l.take k) + (if p.start = [] then 0 else 1) := by
    rw [List.take_add_one, h]
    unfold starts
    by_cases hs : p.start = [] <;> simp [hs, List.filter_append]
  rw [e]
  split <;> simp <;> omega

/-! ## States without a common renderer -/

/-- Every renderer is only pushed to the state that owns it. -/
def SharedOp.keeps (own : Nat → Nat) : SharedOp → Prop
  | .push s (some p) => own p = s
  | _ => True

/-- The calls about one state and its renderers. -/
def SharedOp.about (own : Nat → Nat) (s : Nat) : SharedOp → Bool
  | .push t _ => t == s
  | .setStop p _ => own p == s
  | .setLevel p _ => own p == s

theorem run_cons (h : Shared) (op : SharedOp) (ops : List SharedOp) : h.run (op :: ops) = (h.step op).run ops := rfl

theorem run_append (h : Shared) (a b : List SharedOp) : h.run (a ++ b) = (h.run a).run b := by
  simp [Shared.run]

theorem independent_run (own : Nat → Nat) (s : Nat) (ops : List SharedOp) (h g : Shared)
    (hk : ∀ op ∈ ops, SharedOp.keeps own op) (hl : h.list s = g.list s) (ho : ∀ p ∈ h.list s, own p = s)
    (ha : ∀ p, own p = s → h.attr p = g.attr p) :
    (h.run ops).view s = (g.run (ops.filter (SharedOp.about own s))).view s := by
  induction ops generalizing h g with
  | nil =>
    unfold Shared.run Shared.view
    rw [List.filter_nil, List.foldl_nil, List.foldl_nil, ← hl]
    exact List.map_congr_left (fun p hp => ha p (ho p hp))
  | cons op ops ih =>
    have hk1 := hk op (by simp)
    have hk2 := fun o ho => hk o (List.mem_cons_of_mem _ ho)
    rw [List.filter_cons, run_cons]
    cases op with
    | push t ptr =>
      cases ptr with
      | none =>
        by_cases e : t = s
        · simp only [SharedOp.about, e, beq_self_eq_true, if_true, run_cons]
          exact ih h g hk2 hl ho ha
        · simp only [SharedOp.about, beq_eq_false_iff_ne.mpr e]
          exact ih h g hk2 hl ho ha
      | some p =>
        have hp : own p = t := hk1
        by_cases e : t = s
        · subst e
          simp only [SharedOp.about, beq_self_eq_true, if_true, run_cons]
          have hlast : ∀ q, (h.list t).getLast? = some q → h.attr q = g.attr q := fun q hq =>
            ha q (ho q (List.mem_of_mem_getLast? hq))
          refine ih _ _ hk2 ?_ ?_ ?_
          · simp [Shared.step, Shared.push, Shared.upd, hl]
          · intro q hq
            simp only [Shared.step, Shared.push, Shared.upd, if_true, List.mem_append, List.mem_singleton] at hq
            rcases hq with hq | rfl
            · exact ho q hq
            · exact hp
          · intro q hq
            have hb : h.backLevel t = g.backLevel t := by
              unfold Shared.backLevel
              rw [← hl]
              cases hb : (h.list t).getLast? with
              | none => rfl
              | some b => dsimp only; rw [hlast b hb]
            simp only [Shared.step, Shared.push, Shared.upd, ha p hp, hb]
            split <;> [rfl; exact ha q hq]
        · simp only [SharedOp.about, beq_eq_false_iff_ne.mpr e]
          refine ih _ _ hk2 ?_ ?_ ?_
          · simpa [Shared.step, Shared.push, Shared.upd, Ne.symm e] using hl
          · intro q hq
            simp only [Shared.step, Shared.push, Shared.upd, if_neg (Ne.symm e)] at hq
            exact ho q hq
          · intro q hq
            have : q ≠ p := by rintro rfl; exact e (hp.symm.trans hq)
            simpa [Shared.step, Shared.push, Shared.upd, this] using ha q hq
    | setStop p stop =>
      by_cases e : own p = s
      · simp only [SharedOp.about, e, beq_self_eq_true, if_true, run_cons]
        refine ih _ _ hk2 hl ho (fun q hq => ?_)
        simp only [Shared.step, Shared.setStop, Shared.upd, ha p e, ha q hq]
      · simp only [SharedOp.about, beq_eq_false_iff_ne.mpr e]
        refine ih _ _ hk2 hl ho (fun q hq => ?_)
        have : q ≠ p := by rintro rfl; exact e hq
        simpa [Shared.step, Shared.setStop, Shared.upd, this] using ha q hq
    | setLevel p level =>
      by_cases e : own p = s
      · simp only [SharedOp.about, e, beq_self_eq_true, if_true, run_cons]
        refine ih _ _ hk2 hl ho (fun q hq => ?_)
        simp only [Shared.step, Shared.setLevel, Shared.upd, ha p e, ha q hq]
      · simp only [SharedOp.about, beq_eq_false_iff_ne.mpr e]
        refine ih _ _ hk2 hl ho (fun q hq => ?_)
        have : q ≠ p := by rintro rfl; exact e hq
        simpa [Shared.step, Shared.setLevel, Shared.upd, this] using ha q hq

/-- **C114.** States without a common renderer do not influence each other: what is seen of a state after any calls is what
is seen after the calls about it and its renderers. -/
theorem C114_independent (own : Nat → Nat) (h : Shared) (ops : List SharedOp) (s : Nat)
    (hk : ∀ op ∈ ops, SharedOp.keeps own op) (ho : ∀ p ∈ h.list s, own p = s) :
    (h.run ops).view s = (h.run (ops.filter (SharedOp.about own s))).view s :=
  independent_run own s ops h h hk rfl ho (fun _ _ => rfl)

/-! ## Renderers pushed once -/

/-- Renderers are pushed at most once, and their stop sequences are changed before that, or while no other renderer was
pushed after them; levels are not changed by the caller after that. -/
def PushedOnce : Shared → List SharedOp → Prop
  | _, [] => True
  | h, .push s none :: rest => PushedOnce (h.push s none) rest
  | h, .push s (some p) :: rest => (∀ t, p ∉ h.list t) ∧ PushedOnce (h.push s (some p)) rest
  | h, .setStop p stop :: rest =>
    (∀ t, p ∈ h.list t → (h.list t).getLast? = some p) ∧ PushedOnce (h.setStop p stop) rest
  | h, .setLevel p level :: rest => (∀ t, p ∉ h.list t) ∧ PushedOnce (h.setLevel p level) rest

/-- The levels of all states are right. -/
def RightLevels (h : Shared) : Prop := ∀ s, (h.list s).Nodup ∧ h.view s = lv 0 ((h.view s).map pieceOf)

theorem view_upd_out (h : Shared) (p : Nat) (a : Attribute) (s : Nat) (hp : p ∉ h.list s) :
    (h.list s).map (Shared.upd h.attr p a) = h.view s := by
  refine List.map_congr_left (fun q hq => ?_)
  have : q ≠ p := by rintro rfl; exact hp hq
  simp [Shared.upd, this]

theorem lv_pieces (d : Int) (l : List Piece) : (lv d l).map pieceOf = l := by
  induction l generalizing d with
  | nil => rfl
  | cons p r ih => simp [lv, pieceOf, ih]

theorem view_push (h : Shared) (s p : Nat) (hp : p ∉ h.list s) :
    (h.push s (some p)).view s = (h.view s).push (some (h.attr p)) := by
  have hback : h.backLevel s = (h.view s).backLevel := by
    unfold Shared.backLevel AState.backLevel Shared.view
    rw [List.getLast?_map]
    cases (h.list s).getLast? <;> rfl
  unfold Shared.push AState.push
  dsimp only
  rw [hback]
  unfold Shared.view at *
  simp only [Shared.upd, if_true, List.map_append, List.map_cons, List.map_nil]
  congr 1
  exact view_upd_out h p _ s hp

theorem right_step {h : Shared} {ops : List SharedOp} (hr : RightLevels h) (ho : PushedOnce h ops) :
    RightLevels (h.run ops) := by
  induction ops generalizing h with
  | nil => exact hr
  | cons op ops ih =>
    rw [run_cons]
    cases op with
    | push s ptr =>
      cases ptr with
      | none => exact ih hr ho
      | some p =>
        refine ih (fun t => ?_) ho.2
        by_cases e : t = s
        · subst e
          refine ⟨?_, ?_⟩
          · simp only [Shared.step, Shared.push, Shared.upd, if_true]
            rw [List.nodup_append]
            refine ⟨(hr t).1, by simp, ?_⟩
            rintro a ha b hb rfl
            rw [List.mem_singleton.mp hb] at ha
            exact ho.1 t ha
          · rw [show (h.step (.push t (some p))) = h.push t (some p) from rfl, view_push h t p (ho.1 t), (hr t).2, push_lv,
              lv_pieces]
        · have e1 : (h.step (.push s (some p))).list t = h.list t := by
            simp [Shared.step, Shared.push, Shared.upd, e]
          have e2 : (h.step (.push s (some p))).view t = h.view t := by
            unfold Shared.view
            rw [e1]
            exact view_upd_out h p _ t (ho.1 t)
          rw [e1, e2]
          exact hr t
    | setStop p stop =>
      refine ih (fun t => ?_) ho.2
      refine ⟨(hr t).1, ?_⟩
      by_cases hp : p ∈ h.list t
      · obtain ⟨hn, hv⟩ := hr t
        rcases List.eq_nil_or_concat (h.list t) with e | ⟨q, x, e⟩
        · rw [e] at hp; cases hp
        · rw [List.concat_eq_append] at e
          have hx : x = p := by
            have := ho.1 t hp
            rw [e] at this
            simpa using this
          subst hx
          have hq : x ∉ q := by
            rw [e, List.nodup_append] at hn
            exact fun hm => hn.2.2 x hm x (by simp) rfl
          have e1 : (h.step (.setStop x stop)).view t = (h.view t).setLastStop stop := by
            unfold Shared.view AState.setLastStop
            simp only [Shared.step, Shared.setStop]
            rw [e, List.map_append, List.map_append]
            simp only [List.map_cons, List.map_nil, List.getLast?_append, List.getLast?_singleton, Option.some_or,
              List.dropLast_concat]
            congr 1
            · refine List.map_congr_left (fun y hy => ?_)
              have : y ≠ x := by rintro rfl; exact hq hy
              simp [Shared.upd, this]
            · simp [Shared.upd]
          have e2 : h.view t = q.map h.attr ++ [h.attr x] := by unfold Shared.view; rw [e]; simp
          rw [e1, hv, e2, List.map_append, List.map_cons, List.map_nil, setLastStop_lv, lv_pieces]
      · rw [show (h.step (.setStop p stop)).view t = h.view t from view_upd_out h p _ t hp]
        exact (hr t).2
    | setLevel p level =>
      refine ih (fun t => ?_) ho.2
      refine ⟨(hr t).1, ?_⟩
      rw [show (h.step (.setLevel p level)).view t = h.view t from view_upd_out h p _ t (ho.1 t)]
      exact (hr t).2

/-- **C114.** When every renderer is pushed once, to any of the states, the level of each is the number of styles open at
it: those opened up to it in its state, minus those closed before it. -/
theorem C114_once_partial (h : Shared) (ops : List SharedOp) (he : ∀ s, h.list s = []) (ho : PushedOnce h ops)
    (s k : Nat) (a : Attribute) (ha : ((h.run ops).view s)[k]? = some a) :
    a.level = openAt (((h.run ops).view s).map pieceOf) k := by
  have hr : RightLevels (h.run ops) := right_step (fun s => by rw [Shared.view, he s]; exact ⟨by simp, rfl⟩) ho
  have hv := (hr s).2
  have h2 := ha
  rw [hv, lv_getElem?] at h2
  have hp : (((h.run ops).view s).map pieceOf)[k]? = some (pieceOf a) := by rw [List.getElem?_map, ha]; rfl
  rw [hp] at h2
  rw [openAt_dep _ _ _ hp]
  exact (congrArg Attribute.level (Option.some.inj h2)).symm

theorem pieces_pushes (l ps : List Piece) :
    pieces l (ps.map fun p => .push (some (Attribute.new p.text p.start p.stop))) = l ++ ps := by
  induction ps generalizing l with
  | nil => simp [pieces]
  | cons p ps ih =>
    rw [List.map_cons, pieces, ih, List.append_assoc, List.singleton_append]
    rfl

/-- **C114.** When every renderer is pushed once, each state is the one that a list of values would be (`Model/Attributes`),
so that C45 to C49 apply. -/
theorem C114_values_partial (h : Shared) (ops : List SharedOp) (he : ∀ s, h.list s = []) (ho : PushedOnce h ops) (s : Nat) :
    (h.run ops).view s =
      build [] (((h.run ops).view s).map fun a => .push (some (Attribute.new a.text a.start a.stop))) := by
  have hr : RightLevels (h.run ops) := right_step (fun s => by rw [Shared.view, he s]; exact ⟨by simp, rfl⟩) ho
  have e := build_lv (((h.run ops).view s).map fun a => .push (some (Attribute.new a.text a.start a.stop))) []
  have e2 := pieces_pushes [] (((h.run ops).view s).map pieceOf)
  rw [List.map_map] at e2
  refine Eq.trans ?_ e.symm
  rw [show (((h.run ops).view s).map fun a => AOp.push (some (Attribute.new a.text a.start a.stop))) =
    ((h.run ops).view s).map ((fun p : Piece => AOp.push (some (Attribute.new p.text p.start p.stop))) ∘ pieceOf) from rfl, e2]
  exact (hr s).2

/-! ## Renderers pushed again -/

/-- Pushes to one state. -/
def pushes (s : Nat) (ps : List Nat) : List SharedOp := ps.map (fun p => .push s (some p))

theorem pushes_run (h : Shared) (s : Nat) (he : h.list s = []) (ps : List Nat) :
    (h.run (pushes s ps)).list s = ps ∧
    (∀ q, pieceOf ((h.run (pushes s ps)).attr q) = pieceOf (h.attr q)) ∧
    ∀ j p, ps[j]? = some p → (∀ k, j < k → ps[k]? ≠ some p) →
      ((h.run (pushes s ps)).attr p).level = openAt (ps.map (fun p => pieceOf (h.attr p))) j := by
  induction ps using List.reverseRecOn with
  | nil => exact ⟨he, fun _ => rfl, fun j p hj => by simp at hj⟩
  | append_singleton ps p ih =>
    obtain ⟨h1, h2, h3⟩ := ih
    have er : h.run (pushes s (ps ++ [p])) = (h.run (pushes s ps)).push s (some p) := by
      unfold pushes
      rw [List.map_append, run_append]
      rfl
    rw [er]
    generalize h.run (pushes s ps) = g at h1 h2 h3
    have hp := h2 p
    refine ⟨by simp [Shared.push, Shared.upd, h1], ?_, ?_⟩
    · intro q
      rw [← h2 q]
      simp only [Shared.push, Shared.upd]
      split
      · next e => rw [e]; rfl
      · rfl
    · intro j q hj hlast
      have hlen : ps[j]? = some q ∨ (j = ps.length ∧ q = p) := by
        rcases Nat.lt_trichotomy j ps.length with hlt | rfl | hgt
        · left; rwa [List.getElem?_append_left hlt] at hj
        · right; simp at hj; exact ⟨rfl, hj.symm⟩
        · rw [List.getElem?_eq_none (by simp; omega)] at hj; cases hj
      rcases hlen with hq | ⟨rfl, rfl⟩
      · have hlt : j < ps.length := (List.getElem?_eq_some_iff.mp hq).1
        have hne : q ≠ p := by
          rintro rfl
          exact hlast ps.length hlt (by simp)
        have e : ((g.push s (some p)).attr q) = g.attr q := by simp [Shared.push, Shared.upd, hne]
        rw [e, h3 j q hq (fun k hk hkq => hlast k hk (by
          rw [List.getElem?_append_left (List.getElem?_eq_some_iff.mp hkq).1]; exact hkq))]
        unfold openAt
        rw [List.map_append, List.take_append_of_le_length (by simp; omega), List.take_append_of_le_length (by simp; omega)]
      · have hm : ((ps ++ [q]).map (fun p => pieceOf (h.attr p)))[ps.length]? = some (pieceOf (h.attr q)) := by simp
        rw [openAt_dep _ _ _ hm, List.map_append, List.take_append_of_le_length (by simp),
          show (ps.map fun p => pieceOf (h.attr p)).take ps.length = ps.map fun p => pieceOf (h.attr p) from by
            rw [List.take_of_length_le (by simp)]]
        have hstart : (g.attr q).hasStart = !decide ((pieceOf (h.attr q)).start = []) := by
          rw [← hp]
          unfold Attribute.hasStart pieceOf
          cases (g.attr q).start <;> simp
        have hb : g.backLevel s = dep 0 (ps.map fun p => pieceOf (h.attr p)) := by
          unfold Shared.backLevel
          rw [h1]
          rcases List.eq_nil_or_concat ps with rfl | ⟨qs, x, rfl⟩
          · rfl
          · rw [List.concat_eq_append] at h3 ⊢
            have hx : ((qs ++ [x]).map (fun p => pieceOf (h.attr p)))[qs.length]? = some (pieceOf (h.attr x)) := by simp
            have hlev := h3 qs.length x (by simp) (fun k hk => by rw [List.getElem?_eq_none (by simp; omega)]; simp)
            rw [openAt_dep _ _ _ hx] at hlev
            have ht := dep_take_succ 0 _ _ _ hx
            rw [List.take_of_length_le (by simp)] at ht
            rw [ht]
            have hstop : (g.attr x).hasStop = !decide ((pieceOf (h.attr x)).stop = []) := by
              rw [← h2 x]
              unfold Attribute.hasStop pieceOf
              cases (g.attr x).stop <;> simp
            simp only [List.getLast?_append, List.getLast?_singleton, Option.some_or]
            rw [hstop, hlev]
            by_cases hs : (pieceOf (h.attr x)).stop = [] <;> simp [hs]
        simp only [Shared.push, Shared.upd, if_true, Attribute.setLevel]
        rw [hb, hstart]
        by_cases hs : (pieceOf (h.attr q)).start = [] <;> simp [hs]

/-- **C114**, renderers pushed again: the level of a renderer is the number of styles open where it was pushed last, at all
places where it was pushed. -/
theorem C114_exact (h : Shared) (s : Nat) (he : h.list s = []) (ps : List Nat) (i j p : Nat) (hi : ps[i]? = some p)
    (hj : ps[j]? = some p) (hlast : ∀ k, j < k → ps[k]? ≠ some p) :
    ((h.run (pushes s ps)).view s)[i]?.map Attribute.level = some (openAt (ps.map (fun p => pieceOf (h.attr p))) j) := by
  obtain ⟨h1, _, h3⟩ := pushes_run h s he ps
  unfold Shared.view
  rw [h1, List.getElem?_map, hi]
  simp [h3 j p hj hlast]

theorem last_place (ps : List Nat) (i p : Nat) (hi : ps[i]? = some p) :
    ∃ j, i ≤ j ∧ ps[j]? = some p ∧ ∀ k, j < k → ps[k]? ≠ some p := by
  induction ps using List.reverseRecOn with
  | nil => simp at hi
  | append_singleton ps x ih =>
    by_cases hx : x = p
    · subst hx
      have : i < ps.length + 1 := by simpa using (List.getElem?_eq_some_iff.mp hi).1
      exact ⟨ps.length, by omega, by simp, fun k hk => by rw [List.getElem?_eq_none (by simp; omega)]; simp⟩
    · have hlt : i < ps.length := by
        have h1 : i < ps.length + 1 := by simpa using (List.getElem?_eq_some_iff.mp hi).1
        by_contra hn
        have : i = ps.length := by omega
        subst this
        simp at hi
        exact hx hi
      rw [List.getElem?_append_left hlt] at hi
      obtain ⟨j, h1, h2, h3⟩ := ih hi
      have hjl := (List.getElem?_eq_some_iff.mp h2).1
      refine ⟨j, h1, by rw [List.getElem?_append_left hjl]; exact h2, fun k hk => ?_⟩
      by_cases hkl : k < ps.length
      · rw [List.getElem?_append_left hkl]; exact h3 k hk
      · by_cases hk2 : k = ps.length
        · subst hk2; simpa using hx
        · rw [List.getElem?_eq_none (by simp; omega)]; simp

/-- **C114**, exactly when levels are right: when the same number of styles are open at all places of a renderer. -/
theorem C114_right_iff (h : Shared) (s : Nat) (he : h.list s = []) (ps : List Nat) :
    (∀ k a, ((h.run (pushes s ps)).view s)[k]? = some a → a.level = openAt (((h.run (pushes s ps)).view s).map pieceOf) k) ↔
    ∀ i j p, ps[i]? = some p → ps[j]? = some p →
      openAt (ps.map (fun p => pieceOf (h.attr p))) i = openAt (ps.map (fun p => pieceOf (h.attr p))) j := by
  obtain ⟨h1, h2, h3⟩ := pushes_run h s he ps
  have hv : ((h.run (pushes s ps)).view s).map pieceOf = ps.map (fun p => pieceOf (h.attr p)) := by
    unfold Shared.view
    rw [h1, List.map_map]
    exact List.map_congr_left (fun p _ => h2 p)
  rw [hv]
  have hval : ∀ (i p : Nat), ps[i]? = some p → ((h.run (pushes s ps)).view s)[i]? = some ((h.run (pushes s ps)).attr p) := by
    intro i p hi
    unfold Shared.view
    rw [h1, List.getElem?_map, hi]
    rfl
  constructor
  · intro hr i j p hi hj
    rw [← hr i _ (hval i p hi), ← hr j _ (hval j p hj)]
  · intro hc k a hk
    have : ∃ p, ps[k]? = some p ∧ a = (h.run (pushes s ps)).attr p := by
      unfold Shared.view at hk
      rw [h1, List.getElem?_map] at hk
      cases e : ps[k]? with
      | none => rw [e] at hk; cases hk
      | some p => rw [e] at hk; exact ⟨p, rfl, (Option.some.inj hk).symm⟩
    obtain ⟨p, hp, rfl⟩ := this
    obtain ⟨j, _, hj, hl⟩ := last_place ps k p hp
    rw [h3 j p hj hl, hc k j p hp hj]

/-! ## The renderers of the caller, not copies -/

/-- The renderers that were pushed to a state, in order. -/
def pushedTo (s : Nat) (ops : List SharedOp) : List Nat :=
  ops.filterMap fun op => match op with
    | .push t (some p) => if t = s then some p else none
    | _ => none

/-- The stop sequence of a renderer: the one set last, or else that from the beginning. -/
def lastStop (p : Nat) (stop : List Rune) : List SharedOp → List Rune
  | [] => stop
  | .setStop q x :: ops => lastStop p (if q = p then x else stop) ops
  | _ :: ops => lastStop p stop ops

theorem list_run (s : Nat) (ops : List SharedOp) (h : Shared) : (h.run ops).list s = h.list s ++ pushedTo s ops := by
  induction ops generalizing h with
  | nil => simp [Shared.run, pushedTo]
  | cons op ops ih =>
    rw [run_cons, ih]
    cases op with
    | push t ptr =>
      cases ptr with
      | none => simp [Shared.step, Shared.push, pushedTo]
      | some p =>
        by_cases e : t = s
        · subst e; simp [Shared.step, Shared.push, Shared.upd, pushedTo]
        · have e2 : ¬ s = t := fun x => e x.symm
          simp [Shared.step, Shared.push, Shared.upd, pushedTo, e, e2]
    | setStop p x => simp [Shared.step, Shared.setStop, pushedTo]
    | setLevel p x => simp [Shared.step, Shared.setLevel, pushedTo]

theorem piece_run (p : Nat) (ops : List SharedOp) (h : Shared) :
    pieceOf ((h.run ops).attr p) = ⟨(h.attr p).text, (h.attr p).start, lastStop p (h.attr p).stop ops⟩ := by
  induction ops generalizing h with
  | nil => rfl
  | cons op ops ih =>
    rw [run_cons, ih]
    cases op with
    | push t ptr =>
      cases ptr with
      | none => rfl
      | some q =>
        by_cases e : p = q
        · subst e; simp [Shared.step, Shared.push, Shared.upd, Attribute.setLevel, lastStop]
        · simp [Shared.step, Shared.push, Shared.upd, lastStop, e]
    | setStop q x =>
      by_cases e : p = q
      · subst e; simp [Shared.step, Shared.setStop, Shared.upd, Attribute.setStop, lastStop]
      · have e2 : ¬ q = p := fun x => e x.symm
        simp [Shared.step, Shared.setStop, Shared.upd, lastStop, e, e2]
    | setLevel q x =>
      by_cases e : p = q
      · subst e; simp [Shared.step, Shared.setLevel, Shared.upd, Attribute.setLevel, lastStop]
      · simp [Shared.step, Shared.setLevel, Shared.upd, lastStop, e]

/-- **C114.** A state holds the renderers of the caller, not copies: after any calls, it shows the renderers that were
pushed to it, in order, each with its text, its start sequence and the stop sequence that the caller set last, before
or after the push; and a level set by the caller is seen at every place of the renderer, and at no other. -/
theorem C114_not_copies (h : Shared) (ops : List SharedOp) (s : Nat) (he : h.list s = []) :
    ((h.run ops).view s).map pieceOf =
      (pushedTo s ops).map (fun p => ⟨(h.attr p).text, (h.attr p).start, lastStop p (h.attr p).stop ops⟩) ∧
    ∀ (p : Nat) (level : Int), ((h.run (ops ++ [.setLevel p level])).view s).map Attribute.level =
      List.zipWith (fun q l => if q = p then level else l) (pushedTo s ops) (((h.run ops).view s).map Attribute.level) := by
  have hl : ∀ ops, (h.run ops).list s = pushedTo s ops := fun ops => by rw [list_run, he, List.nil_append]
  constructor
  · unfold Shared.view
    rw [hl, List.map_map]
    exact List.map_congr_left fun p _ => piece_run p ops h
  · intro p level
    have e : pushedTo s (ops ++ [.setLevel p level]) = pushedTo s ops := by simp [pushedTo]
    unfold Shared.view
    rw [hl, hl, e, run_append]
    generalize h.run ops = g
    generalize pushedTo s ops = ps
    induction ps with
    | nil => rfl
    | cons q ps ih =>
      simp only [List.map_cons, List.zipWith_cons_cons, ih]
      congr 1
      by_cases hq : q = p <;> simp [Shared.run, Shared.step, Shared.setLevel, Shared.upd, Attribute.setLevel, hq]

/-! ## Cases -/

/-- A renderer that opens a style (0), one that closes it (1), and one without style (2). -/
def threeRenderers : Shared where
  attr := fun n => if n = 0 then .new [97] [27, 49] [] else if n = 1 then .new [98] [] [27, 48] else .new [99] [] []
  list := fun _ => []

/-- **C114** fails for a renderer pushed twice, even with a style closed in between: pushed again in a style, it counts as in
this style at its first place too. -/
theorem C114_again_fails :
    ((threeRenderers.run (pushes 0 [2, 0, 2, 1])).view 0).map Attribute.level = [1, 1, 1, 1] ∧
    (List.range 4).map (openAt ([2, 0, 2, 1].map fun p => pieceOf (threeRenderers.attr p))) = [0, 1, 1, 1] := by
  decide

/-- **C114** fails for a renderer pushed to two states: the level in the first state is that in the second, and renderers
pushed later to the first state get wrong levels too. -/
theorem C114_two_states_fails :
    ((threeRenderers.run [.push 0 (some 0), .push 1 (some 1), .push 1 (some 0), .push 0 (some 2)]).view 0).map
      Attribute.level = [0, 0] ∧
    ((threeRenderers.run [.push 0 (some 0), .push 0 (some 2)]).view 0).map Attribute.level = [1, 1] := by
  decide

/-- **C114** fails for a stop sequence set late: a renderer that was pushed after it still counts as styled. -/
theorem C114_late_stop_fails :
    ((threeRenderers.run [.push 0 (some 0), .push 0 (some 2), .setStop 0 [27, 48]]).view 0).map Attribute.level = [1, 1] ∧
    (List.range 2).map (openAt (((threeRenderers.run [.push 0 (some 0), .push 0 (some 2), .setStop 0 [27, 48]]).view 0).map
      pieceOf)) = [1, 0] := by
  decide

/-- A stop sequence set after the push is seen in both states; and so is a negative level. -/
example :
    let ops : List SharedOp := [.push 0 (some 0), .push 1 (some 2), .push 1 (some 0), .setStop 0 [27, 48]]
    ((threeRenderers.run ops).view 0).map pieceOf = [⟨[97], [27, 49], [27, 48]⟩] ∧
    ((threeRenderers.run ops).view 1).map pieceOf = [⟨[99], [], []⟩, ⟨[97], [27, 49], [27, 48]⟩] ∧
    ((threeRenderers.run (ops ++ [.setLevel 0 (-3)])).view 1).map Attribute.level = [0, -3] := by
  decide

/-- The hypotheses of `C114_once_partial` for two states and a stop sequence set just after the push. -/
theorem C114_once_case : PushedOnce threeRenderers
      [.push 0 (some 0), .push 1 (some 2), .setStop 0 [27, 48], .push 0 (some 3), .push 0 none, .push 1 (some 1)] ∧
    ((threeRenderers.run [.push 0 (some 0), .push 1 (some 2), .setStop 0 [27, 48], .push 0 (some 3), .push 0 none,
      .push 1 (some 1)]).view 0).map Attribute.level = [1, 0] := by
  refine ⟨⟨?_, ?_, ?_, ?_, ?_, trivial⟩, by decide⟩
  all_goals
    intro t
    simp only [Shared.push, Shared.setStop, Shared.upd, threeRenderers]
    by_cases h0 : t = 0 <;> by_cases h1 : t = 1 <;> simp [h0, h1]

/-! ## The line breaker -/

/-- The pieces of a token: its start and stop sequences, and the texts of its boxes. -/
structure TokenTexts where
  start : List Rune
  stop : List Rune
  texts : List (List Rune)

/-- What boxNodes does with a token, with pointers (linebreak/linebreaker.go:217-284). -/
def ptrToken (m : Shared × Nat) (t : TokenTexts) : Shared × Nat :=
  let s := t.texts.foldl PtrTok.push ⟨false, none, t.start, t.stop, m.1, m.2⟩
  (s.close, s.next)

/-- The same with values, as in `Model/Linebreak`. -/
def valToken (v : AState) (t : TokenTexts) : AState :=
  (t.texts.foldl TokState.push ⟨false, none, t.start, t.stop, v⟩).close

/-- Pointers are positions in the list of the line breaker. -/
structure Positions (s : PtrTok) (v : TokState) : Prop where
  started : s.isStarted = v.isStarted
  current : s.current = v.current
  last : ∀ p, s.current = some p → s.next = p + 1
  start : s.start = v.start
  stop : s.stop = v.stop
  list : s.mem.list 0 = List.range s.next
  view : s.mem.view 0 = v.list

theorem positions_push {s : PtrTok} {v : TokState} (h : Positions s v) (text : List Rune) :
    Positions (s.push text) (v.push text) := by
  have hlen : v.list.length = s.next := by rw [← h.view]; simp [Shared.view, h.list]
  have hout : s.next ∉ s.mem.list 0 := by rw [h.list]; simp
  refine ⟨rfl, ?_, ?_, h.start, h.stop, ?_, ?_⟩
  · simp [PtrTok.push, TokState.push, hlen]
  · intro p hp
    cases hp
    rfl
  · simp [PtrTok.push, Shared.push, Shared.upd, h.list, List.range_succ]
  · simp only [PtrTok.push, TokState.push]
    rw [← h.started, ← h.start, ← h.view]
    generalize (if (!s.isStarted) = true then Attribute.new text s.start [] else Attribute.new text [] []) = a
    have e := view_push { s.mem with attr := Shared.upd s.mem.attr s.next a } 0 s.next hout
    have e1 : Shared.view { s.mem with attr := Shared.upd s.mem.attr s.next a } 0 = s.mem.view 0 :=
      view_upd_out s.mem s.next _ 0 hout
    rw [e, e1]
    simp [Shared.upd]

theorem positions_close {s : PtrTok} {v : TokState} (h : Positions s v) :
    s.close.view 0 = v.close ∧ s.close.list 0 = List.range s.next := by
  unfold PtrTok.close TokState.close
  rw [← h.current, ← h.stop]
  cases hc : s.current with
  | none => exact ⟨by simpa using h.view, h.list⟩
  | some p =>
    by_cases hs : s.stop.length = 0
    · simp only [hs, if_true]
      exact ⟨by simpa using h.view, h.list⟩
    · simp only [hs, if_false]
      have hn := h.last p hc
      refine ⟨?_, h.list⟩
      rw [← h.view]
      simp only [Option.isNone_some, decide_false, Bool.or_self, Bool.false_eq_true, if_false]
      unfold Shared.view AState.setLastStop
      simp only [Shared.setStop, h.list, hn, List.range_succ, List.map_append, List.map_cons, List.map_nil,
        List.getLast?_append, List.getLast?_singleton, Option.some_or, List.dropLast_concat]
      congr 1
      · refine List.map_congr_left (fun q hq => ?_)
        have : q ≠ p := by rintro rfl; simp at hq
        simp [Shared.upd, this]
      · simp [Shared.upd]

/-- **C114.** The line breaker never pushes a renderer twice: with pointers, its list is that of `Model/Linebreak`, for any
tokens after any others, and the pointer of the current renderer is its position in the list. -/
theorem C114_line_breaker (m : Shared) (n : Nat) (he : m.list 0 = List.range n) (tokens : List TokenTexts) :
    let p := tokens.foldl ptrToken (m, n)
    p.1.view 0 = tokens.foldl valToken (m.view 0) ∧ p.1.list 0 = List.range p.2 ∧ (p.1.list 0).Nodup ∧
    ∀ (t : TokenTexts), (t.texts.foldl PtrTok.push ⟨false, none, t.start, t.stop, p.1, p.2⟩).current =
      (t.texts.foldl TokState.push ⟨false, none, t.start, t.stop, p.1.view 0⟩).current := by
  have hfold : ∀ (texts : List (List Rune)) (s : PtrTok) (v : TokState), Positions s v →
      Positions (texts.foldl PtrTok.push s) (texts.foldl TokState.push v) := by
    intro texts
    induction texts with
    | nil => exact fun s v h => h
    | cons t ts ih => exact fun s v h => ih _ _ (positions_push h t)
  have hinit : ∀ (m : Shared) (n : Nat) (he : m.list 0 = List.range n) (t : TokenTexts),
      Positions ⟨false, none, t.start, t.stop, m, n⟩ ⟨false, none, t.start, t.stop, m.view 0⟩ := fun m n he t =>
    ⟨rfl, rfl, fun _ h => (by cases h), rfl, rfl, he, rfl⟩
  dsimp only
  have key : (tokens.foldl ptrToken (m, n)).1.view 0 = tokens.foldl valToken (m.view 0) ∧
      (tokens.foldl ptrToken (m, n)).1.list 0 = List.range (tokens.foldl ptrToken (m, n)).2 := by
    induction tokens generalizing m n with
    | nil => exact ⟨rfl, he⟩
    | cons t ts ih =>
      have hp := hfold t.texts _ _ (hinit m n he t)
      obtain ⟨h1, h2⟩ := positions_close hp
      rw [List.foldl_cons, List.foldl_cons]
      have := ih _ _ h2
      rw [h1] at this
      exact this
  refine ⟨key.1, key.2, by rw [key.2]; exact List.nodup_range, fun t => ?_⟩
  exact (hfold t.texts _ _ (hinit _ _ key.2 t)).current

end Verif.Props
