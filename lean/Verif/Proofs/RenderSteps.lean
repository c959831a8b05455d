import Verif.Model.RenderSteps
import Verif.Proofs.HyphSteps
import Verif.Proofs.Steps

/-! # Rendering with a count of steps: the same results, and bounds for the count -/

namespace Verif.Proofs
open Verif.Go Verif.Model

/-! ## Around a line -/

theorem backtrackLoopC_res (s : AState) (level : Int) : ∀ k, (backtrackLoopC s level k).2 = backtrackLoop s level k
  | 0 => rfl
  | k + 1 => by
    unfold backtrackLoopC backtrackLoop
    cases s[k]? with
    | none => rfl
    | some a =>
      simp only
      split
      · rfl
      · exact backtrackLoopC_res s level k

theorem startLoopC_res (s : AState) : ∀ (n k : Nat) (out : List Rune), (startLoopC s n k out).2 = Verif.Model.startLoop s n k out
  | 0, k, out => by
    unfold startLoopC Verif.Model.startLoop
    cases s[k]? <;> rfl
  | n + 1, k, out => by
    unfold startLoopC Verif.Model.startLoop
    cases s[k]? with
    | none => rfl
    | some a => exact startLoopC_res s n (k + 1) _

theorem stopLoopC_res (level : Int) : ∀ (s : List Attribute) (out : List Rune), (stopLoopC level s out).2 = stopLoop level s out
  | [], out => rfl
  | a :: s, out => by
    unfold stopLoopC stopLoop
    split
    · rfl
    · exact stopLoopC_res level s _

theorem startOfLineC_res (s : AState) (i : AIter) (out : List Rune) : (i.startOfLineC s out).2 = i.startOfLine s out := by
  unfold AIter.startOfLineC AIter.startOfLine
  cases i.current with
  | none => rfl
  | some k =>
    simp only
    cases s[k]? with
    | none => rfl
    | some a =>
      simp only [backtrackLoopC_res]
      generalize (if a.hasStop = true then a.level - 1 else a.level) = v
      split
      · rfl
      · exact startLoopC_res _ _ _ _

theorem endOfLineC_res (s : AState) (i : AIter) (out : List Rune) : (i.endOfLineC s out).2 = i.endOfLine s out := by
  unfold AIter.endOfLineC AIter.endOfLine
  cases i.current with
  | none => rfl
  | some k =>
    simp only
    cases s[k]? with
    | none => rfl
    | some a =>
      simp only [backtrackLoopC_res]
      generalize (if a.hasStop = true then a.level - 1 else a.level) = v
      split
      · rfl
      · exact stopLoopC_res _ _ _

/-- backtrack sees the elements between its result and where it started. -/
theorem backtrackLoopC_steps (s : AState) (level : Int) : ∀ k, k ≤ s.length →
    (backtrackLoopC s level k).1 + (backtrackLoopC s level k).2 = k + 1
  | 0, _ => rfl
  | k + 1, h => by
    unfold backtrackLoopC
    rw [List.getElem?_eq_getElem (by omega)]
    simp only
    split
    · omega
    · have := backtrackLoopC_steps s level k (by omega)
      omega

theorem startLoopC_steps (s : AState) : ∀ (n k : Nat) (out : List Rune), (startLoopC s n k out).1 ≤ n + 1
  | 0, k, out => by
    unfold startLoopC
    cases s[k]? <;> simp
  | n + 1, k, out => by
    unfold startLoopC
    cases s[k]? with
    | none => simp
    | some a =>
      have := startLoopC_steps s n (k + 1) (a.writeStart out)
      simp only
      omega

theorem stopLoopC_steps (level : Int) : ∀ (s : List Attribute) (out : List Rune), (stopLoopC level s out).1 ≤ s.length
  | [], out => Nat.le_refl _
  | a :: s, out => by
    unfold stopLoopC
    have := stopLoopC_steps level s (a.writeStop out)
    split <;> simp only [List.length_cons] <;> omega

theorem startOfLineC_steps (s : AState) (i : AIter) (out : List Rune) : (i.startOfLineC s out).1 ≤ 2 * s.length := by
  unfold AIter.startOfLineC
  cases i.current with
  | none => exact Nat.zero_le _
  | some k =>
    simp only
    cases h : s[k]? with
    | none => exact Nat.zero_le _
    | some a =>
      have hk := (List.getElem?_eq_some_iff.mp h).1
      simp only
      generalize (if a.hasStop = true then a.level - 1 else a.level) = v
      have h1 := backtrackLoopC_steps s v k (by omega)
      generalize backtrackLoopC s v k = b at h1 ⊢
      have h2 := startLoopC_steps s (k - b.2) b.2 out
      split
      · omega
      · omega

theorem endOfLineC_steps (s : AState) (i : AIter) (out : List Rune) : (i.endOfLineC s out).1 ≤ 2 * s.length := by
  unfold AIter.endOfLineC
  cases i.current with
  | none => exact Nat.zero_le _
  | some k =>
    simp only
    cases h : s[k]? with
    | none => exact Nat.zero_le _
    | some a =>
      have hk := (List.getElem?_eq_some_iff.mp h).1
      simp only
      generalize (if a.hasStop = true then a.level - 1 else a.level) = v
      have h1 := backtrackLoopC_steps s v k (by omega)
      generalize backtrackLoopC s v k = b at h1 ⊢
      have h2 := stopLoopC_steps v (s.drop b.2) out
      rw [List.length_drop] at h2
      split
      · omega
      · omega

end Verif.Proofs

namespace Verif.Proofs.LB
open Verif.Go Verif.Model Verif.Model.LB Verif.Proofs

variable {F : Type} [Arith F]

/-! ## The lines -/

theorem skipLoopC_res : ∀ (ns : List (Node F)) (j : Nat), (skipLoopC ns j).2 = skipLoop ns j
  | [], j => rfl
  | x :: ns, j => by
    unfold skipLoopC skipLoop
    split
    · rfl
    · exact skipLoopC_res ns (j + 1)

theorem skipLoopC_steps : ∀ (ns : List (Node F)) (j : Nat), (skipLoopC ns j).1 ≤ ns.length
  | [], j => Nat.le_refl _
  | x :: ns, j => by
    unfold skipLoopC
    have := skipLoopC_steps ns (j + 1)
    split <;> simp only [List.length_cons] <;> omega

theorem skipNodesC_res (start : Nat) (ns : List (Node F)) : (skipNodesC start ns).res = skipNodes start ns := by
  unfold skipNodesC skipNodes
  rw [andThen_res]
  simp only [Counted.of]
  congr 1
  funext tail
  simp only [skipLoopC_res]
  cases skipLoop tail 0 <;> rfl

theorem slice_size {α : Type} {l q : List α} {a b : Int} (h : slice l a b = .ok q) : q.length ≤ l.length := by
  unfold slice at h
  split at h
  · cases h; simp
  · cases h

theorem skipNodesC_steps (start : Nat) (ns : List (Node F)) : (skipNodesC start ns).steps ≤ ns.length := by
  unfold skipNodesC Counted.andThen Counted.of
  cases h : slice ns (start : Int) ns.length with
  | error e => exact Nat.zero_le _
  | ok t =>
    have h1 := slice_size h
    have h2 := skipLoopC_steps t 0
    simp only
    omega

theorem linesLoopC_res (ns : List (Node F)) : ∀ (bs : List (Point F)) (start : Nat), (linesLoopC ns bs start).res = linesLoop ns bs start
  | [], start => rfl
  | b :: bs, start => by
    unfold linesLoopC linesLoop
    simp only [Counted.round, andThen_res, skipNodesC_res, linesLoopC_res ns bs, Counted.of]
    rfl

/-- Finding the lines. -/
theorem linesLoopC_steps (ns : List (Node F)) : ∀ (bs : List (Point F)) (start : Nat),
    (linesLoopC ns bs start).steps ≤ bs.length * (ns.length + 1) ∧
    ∀ lines, (linesLoopC ns bs start).res = .ok lines → lines.length = bs.length ∧ ∀ x ∈ lines, x.2.length ≤ ns.length
  | [], start => by
    refine ⟨Nat.zero_le _, fun lines h => ?_⟩
    simp only [linesLoopC, Counted.of] at h
    cases h
    simp
  | b :: bs, start => by
    have h1 := skipNodesC_steps start ns
    have ih := linesLoopC_steps ns bs b.position
    unfold linesLoopC
    simp only [Counted.round, Counted.andThen, Counted.of, List.length_cons, Nat.add_mul, Nat.one_mul]
    cases hs : (skipNodesC start ns).res with
    | error e => exact ⟨by simp only; omega, fun _ h => by cases h⟩
    | ok st =>
      simp only
      cases hl : slice ns (st : Int) ((b.position : Int) + 1) with
      | error e => exact ⟨by simp only; omega, fun _ h => by cases h⟩
      | ok q =>
        have hq := slice_size hl
        simp only
        cases hr : (linesLoopC ns bs b.position).res with
        | error e => exact ⟨by simp only; omega, fun _ h => by cases h⟩
        | ok lines =>
          obtain ⟨i1, i2⟩ := ih.2 lines hr
          refine ⟨by simp only; omega, fun _ h => ?_⟩
          cases h
          refine ⟨by simp [i1], fun x hx => ?_⟩
          rcases List.mem_cons.mp hx with rfl | hx
          · exact hq
          · exact i2 x hx

theorem nodesLoopC_res (l : Options F) (attrs : AState) (ratio : F) : ∀ (ns : List (Node F)) (out : List Rune) (it : AIter),
    (nodesLoopC l attrs ratio ns out it).res = nodesLoop l attrs ratio ns out it
  | [], out, it => rfl
  | x :: ns, out, it => by
    unfold nodesLoopC nodesLoop
    simp only [Counted.round]
    cases x.kind with
    | box => exact nodesLoopC_res l attrs ratio ns _ _
    | penalty => exact nodesLoopC_res l attrs ratio ns _ _
    | glue =>
      simp only [andThen_res, Counted.of]
      congr 1
      funext q
      exact nodesLoopC_res l attrs ratio ns _ _

theorem render_longer (a : Attribute) (out : List Rune) : out.length ≤ (a.render out).length := by
  unfold Attribute.render Attribute.writeStart Attribute.writeStop emit
  repeat' split
  all_goals simp
  all_goals omega

theorem renderBox_longer (attrs : AState) (x : Node F) (out : List Rune) : out.length ≤ (renderBox attrs x out).length := by
  unfold renderBox
  split
  · simp [emit]
  · split
    · exact render_longer _ _
    · exact Nat.le_refl _

/-- The rounds for a line: one for each node, and those for spaces, which are runes of the line. -/
theorem nodesLoopC_steps (l : Options F) (attrs : AState) (ratio : F) : ∀ (ns : List (Node F)) (out : List Rune) (it : AIter)
    (r : List Rune × AIter), (nodesLoopC l attrs ratio ns out it).res = .ok r →
    ns.length ≤ (nodesLoopC l attrs ratio ns out it).steps ∧
    (nodesLoopC l attrs ratio ns out it).steps + out.length ≤ ns.length + r.1.length
  | [], out, it, r, h => by
    simp only [nodesLoopC, Counted.of] at h
    cases h
    simp [nodesLoopC, Counted.of]
  | x :: ns, out, it, r, h => by
    have ih := nodesLoopC_steps l attrs ratio ns
    unfold nodesLoopC at h ⊢
    simp only [Counted.round, List.length_cons] at h ⊢
    cases hk : x.kind with
    | box =>
      simp only [hk] at h ⊢
      have h1 := renderBox_longer attrs x out
      have := ih _ _ _ h
      omega
    | penalty =>
      simp only [hk] at h ⊢
      have := ih _ _ _ h
      have h1 : out.length ≤ (if (l.renderHyphens && Arith.eq x.penalty l.hyphenPenalty && ns.isEmpty) = true then emit out hyphen
          else out).length := by
        split
        · simp [emit]
        · exact Nat.le_refl _
      omega
    | glue =>
      simp only [hk, Counted.andThen, Counted.of] at h ⊢
      cases hg : glueText l ratio x with
      | error e => rw [hg] at h; cases h
      | ok q =>
        simp only [hg] at h ⊢
        have := ih _ _ _ h
        have e : (emit out q).length = out.length + q.length := by simp [emit]
        omega

theorem writeStart_longer (a : Attribute) (out : List Rune) : out.length ≤ (a.writeStart out).length := by
  unfold Attribute.writeStart emit
  split
  · simp
  · exact Nat.le_refl _

theorem writeStop_longer (a : Attribute) (out : List Rune) : out.length ≤ (a.writeStop out).length := by
  unfold Attribute.writeStop emit
  split
  · simp
  · exact Nat.le_refl _

theorem stopLoop_longer (level : Int) : ∀ (s : List Attribute) (out : List Rune), out.length ≤ (stopLoop level s out).length
  | [], out => Nat.le_refl _
  | a :: s, out => by
    unfold stopLoop
    split
    · exact Nat.le_refl _
    · exact (writeStop_longer a out).trans (stopLoop_longer level s _)

theorem endOfLine_longer (s : AState) (i : AIter) (out : List Rune) : out.length ≤ (i.endOfLine s out).length := by
  unfold AIter.endOfLine
  cases i.current with
  | none => exact Nat.le_refl _
  | some k =>
    simp only
    cases s[k]? with
    | none => exact Nat.le_refl _
    | some a =>
      simp only
      generalize (if a.hasStop = true then a.level - 1 else a.level) = v
      split
      · exact Nat.le_refl _
      · exact stopLoop_longer _ _ _

theorem renderLoopC_res (l : Options F) (attrs : AState) : ∀ (lines : List (F × List (Node F))) (it : AIter),
    (renderLoopC l attrs lines it).res = renderLoop l attrs lines it
  | [], it => rfl
  | x :: lines, it => by
    unfold renderLoopC renderLoop
    simp only [andThen_res, startOfLineC_res, nodesLoopC_res, Counted.of]
    congr 1
    funext p
    simp only [renderLoopC_res l attrs lines, endOfLineC_res]
    rfl

/-- Writing the lines. -/
theorem renderLoopC_steps (l : Options F) (attrs : AState) (N : Nat) : ∀ (lines : List (F × List (Node F))) (it : AIter)
    (r : List (List Rune)), (∀ x ∈ lines, x.2.length ≤ N) → (renderLoopC l attrs lines it).res = .ok r →
    r.length = lines.length ∧
    (renderLoopC l attrs lines it).steps ≤ lines.length * (N + 4 * attrs.length + 1) + r.flatten.length
  | [], it, r, _, h => by
    simp only [renderLoopC, Counted.of] at h
    cases h
    simp [renderLoopC, Counted.of]
  | x :: lines, it, r, hN, h => by
    have h1 := startOfLineC_steps attrs it []
    have hx := hN x (by simp)
    unfold renderLoopC at h ⊢
    simp only [Counted.andThen, Counted.of, List.length_cons, Nat.add_mul, Nat.one_mul] at h ⊢
    cases hn : (nodesLoopC l attrs x.1 x.2 (it.startOfLineC attrs []).2 it).res with
    | error e => rw [hn] at h; cases h
    | ok p =>
      have h2 := nodesLoopC_steps l attrs x.1 x.2 _ it p hn
      have h3 := endOfLineC_steps attrs p.2 p.1
      have h4 := endOfLine_longer attrs p.2 p.1
      rw [← endOfLineC_res] at h4
      simp only [hn] at h ⊢
      cases hr : (renderLoopC l attrs lines p.2).res with
      | error e => rw [hr] at h; cases h
      | ok q =>
        simp only [hr] at h ⊢
        cases h
        have ih := renderLoopC_steps l attrs N lines p.2 q (fun y hy => hN y (by simp [hy])) hr
        simp only [List.length_cons, List.flatten_cons, List.length_append]
        refine ⟨by omega, ?_⟩
        have := ih.2
        omega

theorem renderC_res (l : Options F) (attrs : AState) (ns : List (Node F)) (bs : List (Point F)) :
    (renderC l attrs ns bs).res = render l attrs ns bs := by
  unfold renderC render
  rw [andThen_res, linesLoopC_res]
  congr 1
  funext lines
  exact renderLoopC_res _ _ _ _

/-- **Rendering.** -/
theorem renderC_steps (l : Options F) (attrs : AState) (ns : List (Node F)) (bs : List (Point F)) (r : List (List Rune))
    (h : (renderC l attrs ns bs).res = .ok r) :
    r.length = bs.length - 1 ∧ (renderC l attrs ns bs).steps ≤ r.length * (2 * ns.length + 4 * attrs.length + 2) + r.flatten.length := by
  obtain ⟨h1, h2⟩ := linesLoopC_steps ns bs.tail 0
  unfold renderC at h ⊢
  simp only [Counted.andThen] at h ⊢
  cases hl : (linesLoopC ns bs.tail 0).res with
  | error e => rw [hl] at h; cases h
  | ok lines =>
    simp only [hl] at h ⊢
    obtain ⟨h3, h4⟩ := h2 lines hl
    obtain ⟨h5, h6⟩ := renderLoopC_steps l attrs ns.length lines _ r h4 h
    rw [List.length_tail] at h3 h1
    refine ⟨by omega, ?_⟩
    rw [h5, h3] at *
    have e : ∀ k a b : Nat, k * (a + 1) + k * (a + b + 1) = k * (2 * a + b + 2) := by
      intro k a b
      rw [← Nat.mul_add]
      congr 1
      omega
    have := e (bs.length - 1) ns.length (4 * attrs.length)
    omega

end Verif.Proofs.LB
