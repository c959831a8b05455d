import Verif.Proofs.RenderSteps
import Verif.Proofs.LBWritten

/-! # The renderers that a line breaker keeps -/

namespace Verif.Proofs.LB
open Verif.Go Verif.Model Verif.Model.LB Verif.Spec Verif.Spec.LB Verif.Proofs

section
variable {F : Type} [Arith F]

/-- The number of boxes. -/
def boxCount (ns : List (Node F)) : Nat := ns.countP fun x => decide (x.kind = .box)

theorem boxCount_append (a b : List (Node F)) : boxCount (a ++ b) = boxCount a + boxCount b := List.countP_append

theorem push_length (s : TokState) (t : List Rune) : (s.push t).list.length = s.list.length + 1 := by
  simp [TokState.push, AState.push]

theorem close_length (s : TokState) : s.close.length = s.list.length := by
  unfold TokState.close AState.setLastStop
  split
  · rfl
  · split
    · rfl
    · rename_i a h
      have : s.list ≠ [] := by rintro e; rw [e] at h; cases h
      have := List.length_pos_iff.mpr this
      simp only [List.length_append, List.length_dropLast, List.length_singleton]
      omega

theorem markNodes_count (l : LineBreaker F) (pen : F) (t : List Rune) (s : TokState) :
    (markNodes l pen t s).2.list.length = s.list.length + boxCount (markNodes l pen t s).1 := by
  unfold markNodes
  simp only [push_length]
  rfl

theorem pushHyphen_count (l : LineBreaker F) : boxCount (pushHyphen l) = 0 := by
  unfold pushHyphen
  split <;> rfl

theorem box_count (l : LineBreaker F) (s : TokState) (t : List Rune) (ns : List (Node F)) :
    boxCount (s.box l t :: ns) = boxCount ns + 1 := by
  unfold boxCount
  rw [List.countP_cons_of_pos (by rfl)]

theorem softLoop_count (l : LineBreaker F) : ∀ (ps : List (List Rune)) (s : TokState),
    (softLoop l ps s).2.list.length = s.list.length + boxCount (softLoop l ps s).1
  | [], s => rfl
  | p :: ps, s => by
    unfold softLoop
    simp only [box_count, boxCount_append, pushHyphen_count]
    rw [softLoop_count l ps, push_length]
    omega

theorem wordNodes_count (l : LineBreaker F) (w : List Rune) (s : TokState) (r : List (Node F) × TokState)
    (h : wordNodes l w s = .ok r) : r.2.list.length = s.list.length + boxCount r.1 := by
  unfold wordNodes at h
  split at h
  · cases h; exact markNodes_count _ _ _ _
  · cases h1 : callSplit l.hyphenator w with
    | error e => rw [h1] at h; cases h
    | ok hy =>
      simp only [h1, ok_bind] at h
      cases h2 : slice hy 0 ((hy.length : Int) - 1) with
      | error e => rw [h2] at h; cases h
      | ok ps =>
        simp only [h2, ok_bind] at h
        cases h3 : index hy ((hy.length : Int) - 1) with
        | error e => rw [h3] at h; cases h
        | ok last =>
          simp only [h3, ok_bind] at h
          cases h
          simp only [push_length, softLoop_count, boxCount_append]
          rw [box_count]
          rfl

theorem wordsLoop_count (l : LineBreaker F) : ∀ (ws : List (List Rune)) (s : TokState) (r : List (Node F) × TokState),
    wordsLoop l ws s = .ok r → r.2.list.length = s.list.length + boxCount r.1
  | [], s, r, h => by cases h; rfl
  | w :: ws, s, r, h => by
    unfold wordsLoop at h
    cases h1 : wordNodes l w s with
    | error e => rw [h1] at h; cases h
    | ok p =>
      simp only [h1, ok_bind] at h
      cases h2 : wordsLoop l ws p.2 with
      | error e => rw [h2] at h; cases h
      | ok q =>
        simp only [h2, ok_bind] at h
        cases h
        have e1 := wordNodes_count l w s p h1
        have e2 := wordsLoop_count l ws p.2 q h2
        simp only [boxCount_append]
        omega

theorem partNodes_count (env : Env) (l : LineBreaker F) (t : List Rune) (s : TokState) (r : List (Node F) × TokState)
    (h : partNodes env l t s = .ok r) : r.2.list.length = s.list.length + boxCount r.1 := by
  unfold partNodes at h
  split at h
  · cases h; exact markNodes_count _ _ _ _
  · split at h
    · cases h
      simp only [push_length]
      rfl
    · cases h1 : splitWord t with
      | error e => rw [h1] at h; cases h
      | ok ws =>
        simp only [h1, ok_bind] at h
        exact wordsLoop_count l ws s r h

theorem partsLoop_count (env : Env) (l : LineBreaker F) : ∀ (ws : List (List Rune)) (s : TokState) (r : List (Node F) × TokState),
    partsLoop env l ws s = .ok r → r.2.list.length = s.list.length + boxCount r.1
  | [], s, r, h => by cases h; rfl
  | w :: ws, s, r, h => by
    unfold partsLoop at h
    cases h1 : partNodes env l w s with
    | error e => rw [h1] at h; cases h
    | ok p =>
      simp only [h1, ok_bind] at h
      cases h2 : partsLoop env l ws p.2 with
      | error e => rw [h2] at h; cases h
      | ok q =>
        simp only [h2, ok_bind] at h
        cases h
        have e1 := partNodes_count env l w s p h1
        have e2 := partsLoop_count env l ws p.2 q h2
        simp only [boxCount_append]
        omega

theorem strippedLoop_count (env : Env) (l : LineBreaker F) (mem : List Rune) : ∀ (ts : List Ansi.StrippedToken) (a : AState)
    (r : List (Node F) × AState), strippedLoop env l mem ts a = .ok r → r.2.length = a.length + boxCount r.1
  | [], a, r, h => by cases h; rfl
  | t :: ts, a, r, h => by
    unfold strippedLoop at h
    cases h1 : callSplit l.punctuator (textRunes mem t.text) with
    | error e => rw [h1] at h; cases h
    | ok ps =>
      simp only [h1, ok_bind] at h
      cases h2 : partsLoop env l ps ⟨false, none, fieldRunes mem t.start, fieldRunes mem t.stop, a⟩ with
      | error e => rw [h2] at h; cases h
      | ok p =>
        simp only [h2, ok_bind] at h
        cases h3 : strippedLoop env l mem ts p.2.close with
        | error e => rw [h3] at h; cases h
        | ok q =>
          simp only [h3, ok_bind] at h
          cases h
          have e1 := partsLoop_count env l ps _ p h2
          have e2 := strippedLoop_count env l mem ts _ q h3
          rw [close_length] at e2
          simp only [boxCount_append]
          simp only at e1
          omega

theorem boxNodes_count (rt : Runtime) (env : Env) (l : LineBreaker F) (t : List Rune) (a : AState)
    (r : List (Node F) × AState) (h : boxNodes rt env l t a = .ok r) : r.2.length = a.length + boxCount r.1 := by
  unfold boxNodes at h
  cases h1 : Ansi.stripToken env (t ++ rt.spare t) ⟨0, t.length⟩ with
  | error e => rw [h1] at h; cases h
  | ok p =>
    simp only [h1, ok_bind] at h
    exact strippedLoop_count env l _ _ a r h

theorem tokensLoop_count (rt : Runtime) (env : Env) (l : LineBreaker F) : ∀ (ts : List (List Rune)) (a : AState)
    (r : List (Node F) × AState), tokensLoop rt env l ts a = .ok r → r.2.length = a.length + boxCount r.1
  | [], a, r, h => by cases h; rfl
  | [t], a, r, h => by
    unfold tokensLoop at h
    cases h1 : boxNodes rt env l t a with
    | error e => rw [h1] at h; cases h
    | ok p =>
      simp only [h1, ok_bind] at h
      cases h
      have := boxNodes_count rt env l t a p h1
      simp only [boxCount_append]
      rw [this]
      rfl
  | t :: u :: ts, a, r, h => by
    unfold tokensLoop at h
    cases h1 : boxNodes rt env l t a with
    | error e => rw [h1] at h; cases h
    | ok p =>
      simp only [h1, ok_bind] at h
      cases h2 : tokensLoop rt env l (u :: ts) p.2 with
      | error e => rw [h2] at h; cases h
      | ok q =>
        simp only [h2, ok_bind] at h
        cases h
        have e1 := boxNodes_count rt env l t a p h1
        have e2 := tokensLoop_count rt env l (u :: ts) p.2 q h2
        have e3 : boxCount (gapNodes l) = 0 := rfl
        simp only [boxCount_append]
        omega

end

/-! ## The number of nodes -/

section
variable {F : Type} [Arith F]

theorem softLoop_size (l : LineBreaker F) : ∀ (ps : List (List Rune)) (s : TokState),
    (softLoop l ps s).1.length ≤ 5 * boxCount (softLoop l ps s).1
  | [], s => Nat.le_refl _
  | p :: ps, s => by
    unfold softLoop
    have := softLoop_size l ps (s.push p)
    have h : (pushHyphen l).length ≤ 4 := by unfold pushHyphen; split <;> simp
    simp only [box_count, boxCount_append, pushHyphen_count, List.length_cons, List.length_append]
    omega

theorem wordNodes_size (l : LineBreaker F) (w : List Rune) (s : TokState) (r : List (Node F) × TokState)
    (h : wordNodes l w s = .ok r) : r.1.length ≤ 5 * boxCount r.1 := by
  unfold wordNodes at h
  split at h
  · cases h; exact Nat.le_refl _
  · cases h1 : callSplit l.hyphenator w with
    | error e => rw [h1] at h; cases h
    | ok hy =>
      simp only [h1, ok_bind] at h
      cases h2 : slice hy 0 ((hy.length : Int) - 1) with
      | error e => rw [h2] at h; cases h
      | ok ps =>
        simp only [h2, ok_bind] at h
        cases h3 : index hy ((hy.length : Int) - 1) with
        | error e => rw [h3] at h; cases h
        | ok last =>
          simp only [h3, ok_bind] at h
          cases h
          have := softLoop_size l ps s
          simp only [boxCount_append, List.length_append, List.length_singleton]
          rw [box_count]
          omega

theorem wordsLoop_size (l : LineBreaker F) : ∀ (ws : List (List Rune)) (s : TokState) (r : List (Node F) × TokState),
    wordsLoop l ws s = .ok r → r.1.length ≤ 5 * boxCount r.1
  | [], s, r, h => by cases h; exact Nat.le_refl _
  | w :: ws, s, r, h => by
    unfold wordsLoop at h
    cases h1 : wordNodes l w s with
    | error e => rw [h1] at h; cases h
    | ok p =>
      simp only [h1, ok_bind] at h
      cases h2 : wordsLoop l ws p.2 with
      | error e => rw [h2] at h; cases h
      | ok q =>
        simp only [h2, ok_bind] at h
        cases h
        have e1 := wordNodes_size l w s p h1
        have e2 := wordsLoop_size l ws p.2 q h2
        simp only [boxCount_append, List.length_append]
        omega

theorem partNodes_size (env : Env) (l : LineBreaker F) (t : List Rune) (s : TokState) (r : List (Node F) × TokState)
    (h : partNodes env l t s = .ok r) : r.1.length ≤ 5 * boxCount r.1 := by
  unfold partNodes at h
  split at h
  · cases h; exact Nat.le_refl _
  · split at h
    · cases h; rw [box_count]; simp only [List.length_singleton]; omega
    · cases h1 : splitWord t with
      | error e => rw [h1] at h; cases h
      | ok ws =>
        simp only [h1, ok_bind] at h
        exact wordsLoop_size l ws s r h

theorem partsLoop_size (env : Env) (l : LineBreaker F) : ∀ (ws : List (List Rune)) (s : TokState) (r : List (Node F) × TokState),
    partsLoop env l ws s = .ok r → r.1.length ≤ 5 * boxCount r.1
  | [], s, r, h => by cases h; exact Nat.le_refl _
  | w :: ws, s, r, h => by
    unfold partsLoop at h
    cases h1 : partNodes env l w s with
    | error e => rw [h1] at h; cases h
    | ok p =>
      simp only [h1, ok_bind] at h
      cases h2 : partsLoop env l ws p.2 with
      | error e => rw [h2] at h; cases h
      | ok q =>
        simp only [h2, ok_bind] at h
        cases h
        have e1 := partNodes_size env l w s p h1
        have e2 := partsLoop_size env l ws p.2 q h2
        simp only [boxCount_append, List.length_append]
        omega

theorem strippedLoop_size (env : Env) (l : LineBreaker F) (mem : List Rune) : ∀ (ts : List Ansi.StrippedToken) (a : AState)
    (r : List (Node F) × AState), strippedLoop env l mem ts a = .ok r → r.1.length ≤ 5 * boxCount r.1
  | [], a, r, h => by cases h; exact Nat.le_refl _
  | t :: ts, a, r, h => by
    unfold strippedLoop at h
    cases h1 : callSplit l.punctuator (textRunes mem t.text) with
    | error e => rw [h1] at h; cases h
    | ok ps =>
      simp only [h1, ok_bind] at h
      cases h2 : partsLoop env l ps ⟨false, none, fieldRunes mem t.start, fieldRunes mem t.stop, a⟩ with
      | error e => rw [h2] at h; cases h
      | ok p =>
        simp only [h2, ok_bind] at h
        cases h3 : strippedLoop env l mem ts p.2.close with
        | error e => rw [h3] at h; cases h
        | ok q =>
          simp only [h3, ok_bind] at h
          cases h
          have e1 := partsLoop_size env l ps _ p h2
          have e2 := strippedLoop_size env l mem ts _ q h3
          simp only [boxCount_append, List.length_append]
          omega

theorem boxNodes_size (rt : Runtime) (env : Env) (l : LineBreaker F) (t : List Rune) (a : AState)
    (r : List (Node F) × AState) (h : boxNodes rt env l t a = .ok r) : r.1.length ≤ 5 * boxCount r.1 := by
  unfold boxNodes at h
  cases h1 : Ansi.stripToken env (t ++ rt.spare t) ⟨0, t.length⟩ with
  | error e => rw [h1] at h; cases h
  | ok p =>
    simp only [h1, ok_bind] at h
    exact strippedLoop_size env l _ _ a r h

theorem tokensLoop_size (rt : Runtime) (env : Env) (l : LineBreaker F) : ∀ (ts : List (List Rune)) (a : AState)
    (r : List (Node F) × AState), tokensLoop rt env l ts a = .ok r → r.1.length ≤ 5 * boxCount r.1 + 3 * ts.length
  | [], a, r, h => by cases h; exact Nat.le_refl _
  | [t], a, r, h => by
    unfold tokensLoop at h
    cases h1 : boxNodes rt env l t a with
    | error e => rw [h1] at h; cases h
    | ok p =>
      simp only [h1, ok_bind] at h
      cases h
      have := boxNodes_size rt env l t a p h1
      have e3 : (endNodes (F := F)).length = 2 := rfl
      simp only [boxCount_append, List.length_append, List.length_singleton]
      omega
  | t :: u :: ts, a, r, h => by
    unfold tokensLoop at h
    cases h1 : boxNodes rt env l t a with
    | error e => rw [h1] at h; cases h
    | ok p =>
      simp only [h1, ok_bind] at h
      cases h2 : tokensLoop rt env l (u :: ts) p.2 with
      | error e => rw [h2] at h; cases h
      | ok q =>
        simp only [h2, ok_bind] at h
        cases h
        have e1 := boxNodes_size rt env l t a p h1
        have e2 := tokensLoop_size rt env l (u :: ts) p.2 q h2
        have e3 : (gapNodes l).length = 3 := rfl
        simp only [boxCount_append, List.length_append, List.length_cons] at e2 ⊢
        omega

/-- The pieces set by a call, and the nodes. -/
theorem nodes_kept {rt : Runtime} {env : Env} {l : LineBreaker F} {tokens : List (List Rune)} {ns : List (Node F)} {attrs : AState}
    (h : leftAlignedNodes rt env l tokens = .ok (ns, attrs)) :
    attrs.length = l.attrList.length + boxCount ns ∧ ns.length ≤ 5 * boxCount ns + 3 * tokens.length :=
  ⟨tokensLoop_count rt env l tokens _ _ h, tokensLoop_size rt env l tokens _ _ h⟩

/-- What a call that returns lines did. -/
theorem align_rendered {rt : Runtime} {env : Env} {l l' : LineBreaker F} {tokens lines : List (List Rune)} {maxWidth : F}
    (h : leftAlignUniform rt env l tokens maxWidth = .ok (some lines, l')) :
    ∃ ns attrs chain, leftAlignedNodes rt env l tokens = .ok (ns, attrs) ∧ l' = { l with attrList := attrs } ∧
      breakPoints rt l.toOptions ns (l.scale maxWidth) = .ok (some chain) ∧
      (renderC l.toOptions attrs ns chain).res = .ok lines ∧
      renderSteps rt env l tokens maxWidth = (renderC l.toOptions attrs ns chain).steps := by
  unfold leftAlignUniform at h
  cases h1 : leftAlignedNodes rt env l tokens with
  | error e => rw [h1] at h; cases h
  | ok p =>
    simp only [h1, ok_bind] at h
    have e : breakPoints rt ({ l with attrList := p.2 } : LineBreaker F).toOptions p.1 (({ l with attrList := p.2 } : LineBreaker F).scale maxWidth)
      = breakPoints rt l.toOptions p.1 (l.scale maxWidth) := rfl
    rw [e] at h
    cases h2 : breakPoints rt l.toOptions p.1 (l.scale maxWidth) with
    | error e => rw [h2] at h; cases h
    | ok c =>
      simp only [h2, ok_bind] at h
      cases c with
      | none => cases h
      | some chain =>
        simp only at h
        cases h3 : render l.toOptions p.2 p.1 chain with
        | error e => rw [h3] at h; cases h
        | ok ls =>
          simp only [h3, ok_bind] at h
          cases h
          refine ⟨p.1, p.2, chain, rfl, rfl, h2, by rw [renderC_res]; exact h3, ?_⟩
          unfold renderSteps
          simp only [h1, h2]

theorem chain_length {rt : Runtime} {l : Options F} {ns : List (Node F)} {ideal : F} {chain : List (Point F)}
    (h : breakPoints rt l ns ideal = .ok (some chain)) : 2 ≤ chain.length := by
  unfold breakPoints at h
  cases h1 : breakLoop rt l ns ideal (if findStartNode ns 0 = 0 then none else ns[findStartNode ns 0 - 1]?)
      (ns.drop (findStartNode ns 0)) (findStartNode ns 0) Sums.zero [rootPoint] with
  | error e => simp only [h1] at h; cases h
  | ok act =>
    simp only [h1, ok_bind] at h
    split at h
    · unfold reverseBreakPoints at h
      split at h
      · cases h
      · rename_i hp
        cases h
        have := List.length_pos_iff.mpr hp
        simp only [List.length_append, List.length_reverse, List.length_singleton]
        omega
    · cases h

end

/-! ## The end of a line, when no style is ever closed -/

theorem stopLoopC_all (level : Int) : ∀ (s : List Attribute) (out : List Rune), (∀ a ∈ s, level ≤ a.level) →
    (stopLoopC level s out).1 = s.length
  | [], out, _ => rfl
  | a :: s, out, h => by
    unfold stopLoopC
    rw [if_neg (by have := h a (by simp); omega)]
    simp only [List.length_cons]
    rw [stopLoopC_all level s _ (fun x hx => h x (by simp [hx]))]

/-- Every later element is seen. -/
theorem endOfLineC_lower (s : AState) (k : Nat) (st : Bool) (out : List Rune) (a : Attribute) (ha : s[k]? = some a)
    (hst : a.hasStop = false) (h0 : a.level ≠ 0) (hm : ∀ j b, k ≤ j → s[j]? = some b → a.level ≤ b.level) :
    s.length - k ≤ ((⟨st, some k⟩ : AIter).endOfLineC s out).1 := by
  have hk := (List.getElem?_eq_some_iff.mp ha).1
  unfold AIter.endOfLineC
  simp only [ha, hst, Bool.false_eq_true, if_false, h0]
  have h1 := backtrackLoopC_steps s a.level k (by omega)
  have hin : ∀ j b, (backtrackLoopC s a.level k).2 ≤ j → j < k → s[j]? = some b → a.level ≤ b.level := by
    clear hm h1 ha
    intro j b
    revert hk
    induction k with
    | zero => intro _ _ h; omega
    | succ k ih =>
      intro hk
      unfold backtrackLoopC
      rw [List.getElem?_eq_getElem (by omega)]
      simp only
      split
      · intro h1 h2; omega
      · rename_i hl
        intro h1 h2 h3
        by_cases e : j = k
        · subst e
          rw [List.getElem?_eq_getElem (by omega)] at h3
          cases h3
          omega
        · exact ih (by omega) h1 (by omega) h3
  have hall : (stopLoopC a.level (s.drop (backtrackLoopC s a.level k).2) out).1 = s.length - (backtrackLoopC s a.level k).2 := by
    rw [stopLoopC_all, List.length_drop]
    intro x hx
    obtain ⟨j, hj⟩ := List.mem_iff_getElem?.mp hx
    rw [List.getElem?_drop] at hj
    by_cases hjk : (backtrackLoopC s a.level k).2 + j < k
    · exact hin _ _ (by omega) hjk hj
    · exact hm _ _ (by omega) hj
  rw [hall]
  have hpos : 1 ≤ (backtrackLoopC s a.level k).1 := by
    clear * -
    cases k with
    | zero => exact Nat.le_refl _
    | succ k =>
      unfold backtrackLoopC
      repeat' split
      all_goals simp
  omega

theorem starts_mono (l : List Piece) {i j : Nat} (h : i ≤ j) : starts (l.take i) ≤ starts (l.take j) := by
  unfold starts
  exact ((List.take_prefix_take_left h).sublist.filter _).length_le

theorem stops_none {l : List Piece} (h : ∀ p ∈ l, p.stop = []) (k : Nat) : stops (l.take k) = 0 := by
  unfold stops
  rw [List.length_eq_zero_iff, List.filter_eq_nil_iff]
  intro p hp
  simp [h p ((List.take_sublist k l).subset hp)]

/-- Pieces of which none closes a style, and the first opens one. -/
theorem endOfLineC_open {all : List Piece} (hstop : ∀ p ∈ all, p.stop = []) (hstart : ∃ p ∈ all.head?, p.start ≠ []) {k : Nat}
    (hk : k < all.length) (st : Bool) (out : List Rune) :
    all.length - k ≤ ((⟨st, some k⟩ : AIter).endOfLineC (lv 0 all) out).1 := by
  have h1 : ∀ j p, all[j]? = some p → (lv 0 all)[j]? = some (⟨p.text, p.start, p.stop, (starts (all.take (j + 1)) : Int)⟩ : Attribute) := by
    intro j p hp
    rw [lv_levelAt, hp]
    simp [levelAt, stops_none hstop]
  have hkp := List.getElem?_eq_getElem hk
  have := endOfLineC_lower (lv 0 all) k st out _ (h1 k _ hkp) (by simp [Attribute.hasStop, hstop _ (List.getElem_mem hk)]) ?_ ?_
  · simpa using this
  · simp only
    obtain ⟨p, hp, hs⟩ := hstart
    have : 1 ≤ starts (all.take (k + 1)) := by
      refine Nat.le_trans ?_ (starts_mono all (i := 1) (by omega))
      cases all with
      | nil => cases hp
      | cons q r =>
        simp only [List.head?_cons, Option.mem_def, Option.some.injEq] at hp
        subst hp
        simp [starts, hs]
    omega
  · intro j b hj hb
    have hjl := (List.getElem?_eq_some_iff.mp hb).1
    rw [lv_length] at hjl
    rw [h1 j _ (List.getElem?_eq_getElem hjl)] at hb
    cases hb
    simp only
    have := starts_mono all (i := k + 1) (j := j + 1) (by omega)
    omega

section
variable {F : Type} [Arith F]

/-- The iterator when `k` elements have been consumed. -/
def Consumed (k : Nat) (it : AIter) : Prop := (k = 0 ∧ it = ⟨true, some 0⟩) ∨ (0 < k ∧ it = ⟨false, some (k - 1)⟩)

theorem Consumed.next {s : AState} {k : Nat} {it : AIter} (h : Consumed k it) (hk : k < s.length) : Consumed (k + 1) (it.next s).2 := by
  rcases h with ⟨rfl, rfl⟩ | ⟨h0, rfl⟩
  · exact Or.inr ⟨by omega, rfl⟩
  · refine Or.inr ⟨by omega, ?_⟩
    unfold AIter.next
    simp only [Bool.false_eq_true, if_false]
    rw [if_pos (by omega)]
    congr 2
    omega

/-- Where the iterator is after some nodes. -/
theorem nodesLoop_iter (l : Options F) (attrs : AState) (ratio : F) : ∀ (ns : List (Node F)) (out : List Rune) (k : Nat) (it : AIter)
    (r : List Rune × AIter), nodesLoop l attrs ratio ns out it = .ok r → Consumed k it → k + boxCount ns ≤ attrs.length →
    ∃ k', Consumed k' r.2 ∧ k' ≤ k + boxCount ns
  | [], out, k, it, r, h, ha, hk => by
    cases h
    exact ⟨k, ha, by omega⟩
  | x :: ns, out, k, it, r, h, ha, hk => by
    have ih := nodesLoop_iter l attrs ratio ns
    unfold nodesLoop at h
    cases hx : x.kind with
    | box =>
      have e : boxCount (x :: ns) = boxCount ns + 1 := by
        unfold boxCount
        rw [List.countP_cons_of_pos (by simp [hx])]
      simp only [hx] at h
      cases hs : x.attr.isSome with
      | true =>
        simp only [hs, if_true] at h
        obtain ⟨k', h1, h2⟩ := ih _ (k + 1) _ _ h (ha.next (by omega)) (by omega)
        exact ⟨k', h1, by omega⟩
      | false =>
        simp only [hs, Bool.false_eq_true, if_false] at h
        obtain ⟨k', h1, h2⟩ := ih _ k _ _ h ha (by omega)
        exact ⟨k', h1, by omega⟩
    | penalty =>
      have e : boxCount (x :: ns) = boxCount ns := by
        unfold boxCount
        rw [List.countP_cons_of_neg (by simp [hx])]
      simp only [hx] at h
      obtain ⟨k', h1, h2⟩ := ih _ k _ _ h ha (by omega)
      exact ⟨k', h1, by omega⟩
    | glue =>
      have e : boxCount (x :: ns) = boxCount ns := by
        unfold boxCount
        rw [List.countP_cons_of_neg (by simp [hx])]
      simp only [hx] at h
      cases hg : glueText l ratio x with
      | error e => rw [hg] at h; cases h
      | ok q =>
        simp only [hg, ok_bind] at h
        obtain ⟨k', h1, h2⟩ := ih _ k _ _ h ha (by omega)
        exact ⟨k', h1, by omega⟩

theorem slice_sublist {α : Type} {l q : List α} {a b : Int} (h : slice l a b = .ok q) : q.Sublist l := by
  unfold slice at h
  split at h
  · cases h; exact (List.take_sublist _ _).trans (List.drop_sublist _ _)
  · cases h

/-- Rendering the first line. -/
theorem renderC_open (l : Options F) {H P : List Piece} (hstop : ∀ p ∈ H ++ P, p.stop = [])
    (hstart : ∃ p ∈ (H ++ P).head?, p.start ≠ []) (ns : List (Node F)) (hns : boxCount ns = P.length) (bs : List (Point F))
    (hbs : 2 ≤ bs.length) (r : List (List Rune)) (h : (renderC l (lv 0 (H ++ P)) ns bs).res = .ok r) :
    H.length ≤ (renderC l (lv 0 (H ++ P)) ns bs).steps := by
  have hpos : 0 < (H ++ P).length := by
    obtain ⟨p, hp, _⟩ := hstart
    cases hl : H ++ P with
    | nil => rw [hl] at hp; cases hp
    | cons a b => simp
  obtain ⟨b0, b1, bs, rfl⟩ : ∃ b0 b1 bs', bs = b0 :: b1 :: bs' := by
    match bs, hbs with
    | b0 :: b1 :: bs, _ => exact ⟨b0, b1, bs, rfl⟩
  unfold renderC at h ⊢
  simp only [Counted.andThen, List.tail_cons] at h ⊢
  cases hl : (linesLoopC ns (b1 :: bs) 0).res with
  | error e => rw [hl] at h; cases h
  | ok lines =>
    simp only [hl] at h ⊢
    rw [linesLoopC_res] at hl
    unfold linesLoop at hl
    cases h1 : skipNodes 0 ns with
    | error e => rw [h1] at hl; cases hl
    | ok st =>
      simp only [h1, ok_bind] at hl
      cases h2 : slice ns (st : Int) ((b1.position : Int) + 1) with
      | error e => rw [h2] at hl; cases hl
      | ok q =>
        simp only [h2, ok_bind] at hl
        cases h3 : linesLoop ns bs b1.position with
        | error e => rw [h3] at hl; cases hl
        | ok rest =>
          simp only [h3, ok_bind] at hl
          cases hl
          have hq : boxCount q ≤ P.length := by
            rw [← hns]
            exact (slice_sublist h2).countP_le
          unfold renderLoopC at h ⊢
          simp only [Counted.andThen] at h ⊢
          have hit : Consumed 0 (AState.iterator (lv 0 (H ++ P))) := by
            refine Or.inl ⟨rfl, ?_⟩
            unfold AState.iterator AState.front
            rw [lv_length, if_pos hpos]
          cases hn : (nodesLoopC l (lv 0 (H ++ P)) b1.ratio q (AIter.startOfLineC (lv 0 (H ++ P)) (AState.iterator (lv 0 (H ++ P))) []).2
              (AState.iterator (lv 0 (H ++ P)))).res with
          | error e => rw [hn] at h; cases h
          | ok p =>
            simp only [hn] at h ⊢
            rw [nodesLoopC_res] at hn
            obtain ⟨k, k1, k2⟩ := nodesLoop_iter l _ _ q _ 0 _ p hn hit (by rw [lv_length, List.length_append]; omega)
            have key : H.length ≤ (p.2.endOfLineC (lv 0 (H ++ P)) p.1).1 := by
              rcases k1 with ⟨_, e⟩ | ⟨k0, e⟩
              · rw [e]
                have := endOfLineC_open hstop hstart (k := 0) hpos true p.1
                rw [List.length_append] at this
                omega
              · rw [e]
                have := endOfLineC_open hstop hstart (k := k - 1) (by rw [List.length_append]; omega) false p.1
                rw [List.length_append] at this
                omega
            omega

end

end Verif.Proofs.LB
