import Verif.Model.HyphSteps
import Verif.Proofs.Trie
import Verif.Proofs.Dictionary

/-! # Hyphenation with a count of steps: the same results, and bounds for the count -/

namespace Verif.Proofs
open Verif.Go Verif.Model Verif.Spec
open Verif.Model.LB (Counted)

/-! ## The results -/

theorem andThen_res {α β : Type} (x : Counted α) (f : α → Counted β) : (x.andThen f).res = x.res >>= fun a => (f a).res := by
  unfold Counted.andThen
  cases x.res <;> rfl

theorem getC_res {V : Type} : ∀ (k : List Rune) (t : Trie V), (t.getC k).2 = t.get k
  | [], t => rfl
  | r :: k, t => by
    unfold Trie.getC Trie.get
    cases h : Trie.childGet r t.children with
    | none => rfl
    | some c => simpa using getC_res k c

theorem containsHyphenC_res : ∀ w : List Rune, (containsHyphenC w).2 = containsHyphen w
  | [] => rfl
  | r :: w => by
    unfold containsHyphenC containsHyphen
    split
    · rfl
    · simpa using containsHyphenC_res w

theorem isPatternLoopC_res (env : Env) (p : Trie (List Int)) : ∀ (w f : List Rune) (res : List (List Int)),
    (isPatternLoopC env p w f res).2 = isPatternLoop env p w f res
  | [], f, res => rfl
  | c :: w, f, res => by
    unfold isPatternLoopC isPatternLoop
    simp only [getC_res]
    cases h : p.get (f ++ [env.toLower c]) with
    | none => simpa using isPatternLoopC_res env p w _ res
    | some v => simpa using isPatternLoopC_res env p w _ _

theorem isPatternC_res (env : Env) (p : Trie (List Int)) (i : Nat) (w : List Rune) :
    (isPatternC env p i w).2 = isPattern env p i w := by
  unfold isPatternC isPattern
  by_cases hi : i = 0
  · simp only [hi, if_true, isPatternLoopC_res, getC_res]
    cases p.get ((isPatternLoop env p (w.drop 0) [0x2E] []).1 ++ [0x2E]) <;> rfl
  · simp only [hi, if_false, isPatternLoopC_res, getC_res]
    cases p.get ((isPatternLoop env p (w.drop (i - 1)) [] []).1 ++ [0x2E]) <;> rfl

theorem mergeOneC_res (a : Nat) : ∀ (l : List Int) (k : Nat) (ps : List Int), (mergeOneC a l k ps).res = mergeOne a l k ps
  | [], k, ps => rfl
  | x :: l, k, ps => by
    unfold mergeOneC mergeOne
    simp only [andThen_res, Counted.of]
    congr 1
    funext c
    split <;> exact mergeOneC_res a l (k + 1) _

theorem mergeBreakPointsC_res : ∀ (ps : List Int) (l : List (List Int)) (a : Nat),
    (mergeBreakPointsC ps l a).res = mergeBreakPoints ps l a
  | ps, [], a => rfl
  | ps, p :: l, a => by
    unfold mergeBreakPointsC mergeBreakPoints
    simp only [Counted.round, andThen_res, mergeOneC_res]
    congr 1
    funext q
    exact mergeBreakPointsC_res q l a

theorem patternLoopC_res (env : Env) (p : Trie (List Int)) (w : List Rune) : ∀ (n i : Nat) (ps : List Int),
    (patternLoopC env p w n i ps).res = patternLoop env p w n i ps
  | 0, i, ps => rfl
  | n + 1, i, ps => by
    unfold patternLoopC patternLoop
    simp only [isPatternC_res]
    cases h : (isPattern env p i w).2 with
    | true =>
      simp only [if_true, andThen_res, mergeBreakPointsC_res]
      congr 1
      funext q
      exact patternLoopC_res env p w n (i + 1) q
    | false => simpa using patternLoopC_res env p w n (i + 1) ps

theorem splitLoopC_res (o : HOptions) (w : List Rune) (len : Nat) : ∀ (l : List Int) (i prev : Nat) (parts : List (List Rune)),
    (splitLoopC o w len l i prev parts).res = splitLoop o w len l i prev parts
  | [], i, prev, parts => rfl
  | x :: l, i, prev, parts => by
    unfold splitLoopC splitLoop
    simp only [Counted.round]
    split
    · exact splitLoopC_res o w len l _ _ _
    · split
      · exact splitLoopC_res o w len l _ _ _
      · simp only [andThen_res, Counted.of]
        congr 1
        funext q
        exact splitLoopC_res o w len l _ _ _

theorem splitAtPositionsC_res (o : HOptions) (w : List Rune) (len : Nat) (ps : List Int) :
    (splitAtPositionsC o w len ps).res = splitAtPositions o w len ps := by
  unfold splitAtPositionsC splitAtPositions
  rw [andThen_res, splitLoopC_res]
  rfl

theorem breakWordC_res (env : Env) (dict : Dictionary) (o : HOptions) (w : List Rune) :
    (hyphenatorBreakWordC env dict o w).res = hyphenatorBreakWord env dict o w := by
  unfold hyphenatorBreakWordC hyphenatorBreakWord
  simp only [containsHyphenC_res, getC_res]
  split
  · rfl
  · cases h : dict.exceptions.get w with
    | some b => simp only [splitAtPositionsC_res]
    | none =>
      simp only [andThen_res, patternLoopC_res, splitAtPositionsC_res, Counted.of, bind_assoc]

/-! ## Bounds -/

/-- No node of the trie is deeper than `D`, and no value is longer than `A`. -/
structure Bounded (t : Trie (List Int)) (D A : Nat) : Prop where
  depth : ∀ k n, Trie.nodeAt k t = some n → k.length ≤ D
  size : ∀ k v, t.get k = some v → v.length ≤ A

theorem get_node {V : Type} : ∀ (k : List Rune) (t : Trie V) (v : V), t.get k = some v → ∃ n, Trie.nodeAt k t = some n
  | [], t, v, _ => ⟨t, rfl⟩
  | r :: k, t, v, h => by
    unfold Trie.get at h
    unfold Trie.nodeAt
    cases e : Trie.childGet r t.children with
    | none => rw [e] at h; cases h
    | some c => rw [e] at h; exact get_node k c v h

theorem getC_length {V : Type} : ∀ (k : List Rune) (t : Trie V), (t.getC k).1 ≤ k.length
  | [], t => Nat.le_refl _
  | r :: k, t => by
    unfold Trie.getC
    cases h : Trie.childGet r t.children with
    | none => simp
    | some c =>
      have := getC_length k c
      simp only [List.length_cons]
      omega

theorem getC_depth {V : Type} (D : Nat) : ∀ (k : List Rune) (t : Trie V), (∀ k n, Trie.nodeAt k t = some n → k.length ≤ D) →
    (t.getC k).1 ≤ D + 1
  | [], t, h => Nat.zero_le _
  | r :: k, t, h => by
    unfold Trie.getC
    cases e : Trie.childGet r t.children with
    | none => simp
    | some c =>
      have hD : 1 ≤ D := by
        have := h [r] c (by simp [Trie.nodeAt, e])
        simpa using this
      have := getC_depth (D - 1) k c (fun k' n hn => by
        have := h (r :: k') n (by simp [Trie.nodeAt, e, hn])
        simp only [List.length_cons] at this
        omega)
      simp only
      omega

theorem containsHyphenC_steps : ∀ w : List Rune, (containsHyphenC w).1 ≤ w.length
  | [] => Nat.le_refl _
  | r :: w => by
    unfold containsHyphenC
    have := containsHyphenC_steps w
    split <;> simp only [List.length_cons] <;> omega

variable {env : Env} {p : Trie (List Int)} {D A : Nat}

theorem isPatternLoopC_steps (hp : Bounded p D A) : ∀ (w f : List Rune) (res : List (List Int)),
    w.length ≤ (isPatternLoopC env p w f res).1 ∧ (isPatternLoopC env p w f res).1 ≤ w.length * (D + 2)
  | [], f, res => by simp [isPatternLoopC]
  | c :: w, f, res => by
    unfold isPatternLoopC
    have hg := getC_depth D (f ++ [env.toLower c]) p hp.depth
    simp only [List.length_cons, Nat.add_mul, Nat.one_mul]
    cases h : (p.getC (f ++ [env.toLower c])).2 with
    | none => simp only; have := isPatternLoopC_steps hp w (f ++ [env.toLower c]) res; omega
    | some v => simp only; have := isPatternLoopC_steps hp w (f ++ [env.toLower c]) (res ++ [v]); omega

/-- The patterns found: at most one for each length. -/
theorem isPatternLoop_found (hp : Bounded p D A) : ∀ (w f : List Rune) (res : List (List Int)),
    (isPatternLoop env p w f res).2.length ≤ res.length + (D - f.length) ∧
    (isPatternLoop env p w f res).1.length = f.length + w.length ∧
    (isPatternLoop env p w f res).2.length + D - min D (f.length + w.length) ≤ res.length + (D - min D f.length) ∧
    ((∀ v ∈ res, v.length ≤ A) → ∀ v ∈ (isPatternLoop env p w f res).2, v.length ≤ A)
  | [], f, res => by
    unfold isPatternLoop
    refine ⟨by simp, by simp, by simp; omega, fun h => h⟩
  | c :: w, f, res => by
    unfold isPatternLoop
    simp only
    cases h : p.get (f ++ [env.toLower c]) with
    | none =>
      obtain ⟨h1, h2, h3, h4⟩ := isPatternLoop_found hp w (f ++ [env.toLower c]) res
      simp only [List.length_append, List.length_cons, List.length_nil] at h1 h2 h3 ⊢
      refine ⟨by omega, by omega, by omega, h4⟩
    | some v =>
      obtain ⟨n, hn⟩ := get_node _ _ _ h
      have hl := hp.depth _ _ hn
      obtain ⟨h1, h2, h3, h4⟩ := isPatternLoop_found hp w (f ++ [env.toLower c]) (res ++ [v])
      simp only [List.length_append, List.length_cons, List.length_nil] at h1 h2 h3 hl ⊢
      refine ⟨by omega, by omega, by omega, fun hr => h4 ?_⟩
      intro x hx
      rcases List.mem_append.mp hx with hx | hx
      · exact hr x hx
      · rw [List.mem_singleton.mp hx]; exact hp.size _ _ h

theorem isPattern_found (hp : Bounded p D A) (i : Nat) (w : List Rune) :
    (isPattern env p i w).1.length ≤ D ∧ ∀ v ∈ (isPattern env p i w).1, v.length ≤ A := by
  have key : ∀ (f : List Rune) (s : Nat),
      let r := isPatternLoop env p (w.drop s) f []
      let res := (match p.get (r.1 ++ [0x2E]) with | none => r.2 | some ps => r.2 ++ [ps] : List (List Int))
      res.length ≤ D ∧ ∀ v ∈ res, v.length ≤ A := by
    intro f s r res
    obtain ⟨h1, h2, h3, h4⟩ := isPatternLoop_found (env := env) hp (w.drop s) f []
    have h4 := h4 (by simp)
    show (match p.get (r.1 ++ [0x2E]) with | none => r.2 | some ps => r.2 ++ [ps] : List (List Int)).length ≤ D ∧ ∀ v ∈ res, v.length ≤ A
    show _ ∧ ∀ v ∈ (match p.get (r.1 ++ [0x2E]) with | none => r.2 | some ps => r.2 ++ [ps] : List (List Int)), v.length ≤ A
    cases h : p.get (r.1 ++ [0x2E]) with
    | none =>
      have h1' : r.2.length ≤ 0 + (D - f.length) := h1
      exact ⟨by simp only; omega, h4⟩
    | some v =>
      obtain ⟨n, hn⟩ := get_node _ _ _ h
      have hl := hp.depth _ _ hn
      have hlen : r.1.length = f.length + (w.drop s).length := h2
      have h3' : r.2.length + D - min D (f.length + (w.drop s).length) ≤ 0 + (D - min D f.length) := h3
      simp only [List.length_append, List.length_cons, List.length_nil] at hl ⊢
      refine ⟨by omega, fun x hx => ?_⟩
      rcases List.mem_append.mp hx with hx | hx
      · exact h4 x hx
      · rw [List.mem_singleton.mp hx]; exact hp.size _ _ h
  unfold isPattern
  by_cases hi : i = 0
  · simp only [hi, if_true]; exact key [0x2E] 0
  · simp only [hi, if_false]; exact key [] (i - 1)

theorem isPatternC_steps (hp : Bounded p D A) (i : Nat) (w : List Rune) :
    w.length - (i - 1) ≤ (isPatternC env p i w).1 ∧ (isPatternC env p i w).1 ≤ (w.length + 1) * (D + 2) := by
  have key : ∀ (f : List Rune) (s : Nat), w.length - s ≤ (isPatternLoopC env p (w.drop s) f []).1 ∧
      (isPatternLoopC env p (w.drop s) f []).1 ≤ w.length * (D + 2) := by
    intro f s
    have h := isPatternLoopC_steps (env := env) hp (w.drop s) f []
    rw [List.length_drop] at h
    exact ⟨h.1, h.2.trans (Nat.mul_le_mul_right _ (Nat.sub_le _ _))⟩
  unfold isPatternC
  rw [Nat.add_mul, Nat.one_mul]
  by_cases hi : i = 0
  · simp only [hi, if_true]
    have h1 := key [0x2E] 0
    have h2 := getC_depth D ((isPatternLoopC env p (w.drop 0) [0x2E] []).2.1 ++ [0x2E]) p hp.depth
    omega
  · simp only [hi, if_false]
    have h1 := key [] (i - 1)
    have h2 := getC_depth D ((isPatternLoopC env p (w.drop (i - 1)) [] []).2.1 ++ [0x2E]) p hp.depth
    omega

theorem mergeOneC_steps (a M : Nat) : ∀ (l : List Int) (k : Nat) (ps : List Int), ps.length ≤ M → a + k + l.length ≤ M →
    ∃ q, (mergeOneC a l k ps).res = .ok q ∧ q.length ≤ M ∧ ps.length ≤ q.length ∧
      (mergeOneC a l k ps).steps + ps.length ≤ l.length + q.length
  | [], k, ps, h1, h2 => ⟨ps, rfl, h1, Nat.le_refl _, by simp [mergeOneC, Counted.of]⟩
  | x :: l, k, ps, h1, h2 => by
    simp only [List.length_cons] at h2
    unfold mergeOneC
    obtain ⟨g, hg⟩ : ∃ g, g = growPositions ps (a + k - ps.length + 1) := ⟨_, rfl⟩
    have hlen : g.length = ps.length + ((a : Int) + k - ps.length + 1).toNat ∧ a + k < g.length ∧ g.length ≤ M := by
      unfold growPositions at hg
      by_cases hm : (a : Int) + k - ps.length + 1 > 0
      · rw [if_pos hm] at hg
        have hl : g.length = ps.length + ((a : Int) + k - ps.length + 1).toNat := by rw [hg]; simp
        omega
      · rw [if_neg hm] at hg
        rw [hg]
        omega
    dsimp only
    rw [← hg]
    have hi : index g ((a + k : Nat) : Int) = .ok g[a + k] := by
      unfold index
      rw [if_neg (by omega), Int.toNat_natCast, List.getElem?_eq_getElem hlen.2.1]
    simp only [Counted.of, Counted.andThen, hi]
    by_cases hx : x > g[a + k]
    · simp only [hx, if_true]
      obtain ⟨q, q1, q2, q4, q3⟩ := mergeOneC_steps a M l (k + 1) (g.set (a + k) x) (by simp; omega) (by omega)
      rw [List.length_set] at q3 q4
      exact ⟨q, q1, q2, by omega, by simp only [List.length_cons]; omega⟩
    · simp only [hx, if_false]
      obtain ⟨q, q1, q2, q4, q3⟩ := mergeOneC_steps a M l (k + 1) g (by omega) (by omega)
      exact ⟨q, q1, q2, by omega, by simp only [List.length_cons]; omega⟩

theorem mergeC_steps (a A M : Nat) (hM : a + A ≤ M) : ∀ (l : List (List Int)) (ps : List Int), ps.length ≤ M → (∀ v ∈ l, v.length ≤ A) →
    ∃ q, (mergeBreakPointsC ps l a).res = .ok q ∧ q.length ≤ M ∧ ps.length ≤ q.length ∧
      (mergeBreakPointsC ps l a).steps + ps.length ≤ l.length * (A + 1) + q.length
  | [], ps, h1, h2 => ⟨ps, rfl, h1, Nat.le_refl _, by simp [mergeBreakPointsC, Counted.of]⟩
  | v :: l, ps, h1, h2 => by
    have hv := h2 v (by simp)
    obtain ⟨q, q1, q2, q4, q3⟩ := mergeOneC_steps a M v 0 ps h1 (by omega)
    obtain ⟨q', g1, g2, g4, g3⟩ := mergeC_steps a A M hM l q q2 (fun x hx => h2 x (by simp [hx]))
    unfold mergeBreakPointsC
    simp only [Counted.round, Counted.andThen, q1]
    refine ⟨q', g1, g2, by omega, ?_⟩
    simp only [List.length_cons, Nat.add_mul, Nat.one_mul]
    simp only [Nat.mul_add, Nat.mul_one] at g3 ⊢
    omega

theorem patternLoopC_steps (hp : Bounded p D A) (w : List Rune) (M : Nat) (hM : w.length + A ≤ M) : ∀ (n i : Nat) (ps : List Int),
    i + n ≤ w.length → ps.length ≤ M →
    ∃ q, (patternLoopC env p w n i ps).res = .ok q ∧ q.length ≤ M ∧ ps.length ≤ q.length ∧
      (patternLoopC env p w n i ps).steps + ps.length ≤ n * (1 + (w.length + 1) * (D + 2) + D * (A + 1)) + q.length
  | 0, i, ps, _, h => ⟨ps, rfl, h, Nat.le_refl _, by simp [patternLoopC, Counted.of]⟩
  | n + 1, i, ps, hi, h => by
    have h1 := (isPatternC_steps (env := env) hp i w).2
    have h2 := isPattern_found (env := env) hp i w
    unfold patternLoopC
    simp only [isPatternC_res]
    rw [Nat.add_mul, Nat.one_mul]
    cases hb : (isPattern env p i w).2 with
    | true =>
      obtain ⟨q, q1, q2, q5, q3⟩ := mergeC_steps i A M (by omega) (isPattern env p i w).1 ps h h2.2
      have q4 : (isPattern env p i w).1.length * (A + 1) ≤ D * (A + 1) := Nat.mul_le_mul_right _ h2.1
      obtain ⟨q', g1, g2, g3, g4⟩ := patternLoopC_steps hp w M hM n (i + 1) q (by omega) q2
      simp only [if_true, Counted.andThen, q1]
      refine ⟨q', g1, g2, by omega, by omega⟩
    | false =>
      obtain ⟨q', g1, g2, g3, g4⟩ := patternLoopC_steps hp w M hM n (i + 1) ps (by omega) h
      simp only [Bool.false_eq_true, if_false]
      exact ⟨q', g1, g2, g3, by omega⟩

theorem splitLoopC_steps (o : HOptions) (w : List Rune) (len : Nat) : ∀ (l : List Int) (i prev : Nat) (parts : List (List Rune)),
    (splitLoopC o w len l i prev parts).steps ≤ l.length
  | [], i, prev, parts => Nat.zero_le _
  | x :: l, i, prev, parts => by
    unfold splitLoopC
    simp only [Counted.round, List.length_cons]
    have h1 := splitLoopC_steps o w len l (i + 1)
    split
    · have := h1 prev parts; omega
    · split
      · have := h1 prev parts; omega
      · unfold Counted.andThen Counted.of
        cases slice w (prev : Int) (i : Int) with
        | error e => simp
        | ok q => have := h1 i (parts ++ [q]); simp only; omega

theorem splitAtPositionsC_steps (o : HOptions) (w : List Rune) (len : Nat) (l : List Int) :
    (splitAtPositionsC o w len l).steps ≤ l.length := by
  have h := splitLoopC_steps o w len l 0 0 []
  unfold splitAtPositionsC Counted.andThen Counted.of
  cases (splitLoopC o w len l 0 0 []).res with
  | error e => exact h
  | ok q => simpa using h

theorem slice_length {l q : List Int} {a b : Int} (h : slice l a b = .ok q) : q.length ≤ l.length := by
  unfold slice at h
  split at h
  · cases h; simp
  · cases h

theorem clearEdges_length {n : Nat} {l q : List Int} (h : clearEdges n l = .ok q) : q.length = l.length := by
  unfold clearEdges at h
  cases h0 : index l 0 with
  | error e => rw [h0] at h; cases h
  | ok x =>
    rw [h0] at h
    simp only [ok_bind] at h
    split at h
    · cases h; simp
    · split at h
      · cases h1 : index l (n : Int) with
        | error e => rw [h1] at h; cases h
        | ok y =>
          rw [h1] at h
          simp only [ok_bind] at h
          split at h <;> cases h <;> simp
      · cases h; rfl

/-- The rounds made for any word. -/
theorem breakWordC_steps (env : Env) (dict : Dictionary) (o : HOptions) (w : List Rune) (hp : Bounded dict.patterns D A)
    (he : ∀ v, dict.exceptions.get w = some v → v.length ≤ A) :
    (hyphenatorBreakWordC env dict o w).steps ≤
      w.length * (1 + (w.length + 1) * (D + 2) + D * (A + 1)) + 4 * w.length + 2 * A + 60 := by
  have h1 := containsHyphenC_steps w
  have h2 := getC_length w dict.exceptions
  unfold hyphenatorBreakWordC
  simp only [getC_res]
  split
  · simp only; omega
  · cases h : dict.exceptions.get w with
    | some b =>
      have h3 := he b h
      have h4 := splitAtPositionsC_steps o w w.length b
      simp only
      omega
    | none =>
      simp only
      obtain ⟨q, q1, q2, q3, q4⟩ := patternLoopC_steps (env := env) hp w (w.length + A + 30) (by omega) w.length 0
        (List.replicate 30 0) (by omega) (by rw [List.length_replicate]; omega)
      rw [List.length_replicate] at q4
      unfold Counted.andThen
      simp only [q1, Counted.of]
      cases hs : slice q 1 ((q.length : Int) - 1) with
      | error e => simp only [error_bind]; omega
      | ok q' =>
        have l1 := slice_length hs
        simp only [ok_bind]
        cases hc : clearEdges w.length q' with
        | error e => simp only; omega
        | ok c =>
          have l2 := clearEdges_length hc
          have l3 := splitAtPositionsC_steps o w w.length c
          simp only
          omega

theorem mergeC_ok (a : Nat) (l : List (List Int)) (ps : List Int) : ∃ q, (mergeBreakPointsC ps l a).res = .ok q := by
  obtain ⟨q, h, _⟩ := mergeC_steps a l.flatten.length (ps.length + (a + l.flatten.length)) (by omega) l ps (by omega)
    (fun v hv => (List.sublist_flatten_of_mem hv).length_le)
  exact ⟨q, h⟩

theorem patternLoopC_lower (w : List Rune) : ∀ (n i : Nat) (ps : List Int), i + n ≤ w.length →
    n * n ≤ 2 * (patternLoopC env p w n i ps).steps
  | 0, i, ps, _ => Nat.zero_le _
  | n + 1, i, ps, h => by
    have h1 : n + 1 ≤ (isPatternC env p i w).1 := by
      have : ∀ (f : List Rune) (r : List (List Int)) (x : List Rune), x.length ≤ (isPatternLoopC env p x f r).1 := by
        intro f r x
        induction x generalizing f r with
        | nil => exact Nat.zero_le _
        | cons c x ih =>
          unfold isPatternLoopC
          cases h : (p.getC (f ++ [env.toLower c])).2 with
          | none => have := ih (f ++ [env.toLower c]) r; simp only [h, List.length_cons]; omega
          | some v => have := ih (f ++ [env.toLower c]) (r ++ [v]); simp only [h, List.length_cons]; omega
      unfold isPatternC
      by_cases hi : i = 0
      · have := this [0x2E] [] (w.drop 0)
        simp only [hi, if_true]
        simp only [List.length_drop] at this
        omega
      · have := this [] [] (w.drop (i - 1))
        simp only [hi, if_false]
        simp only [List.length_drop] at this
        omega
    have e : (n + 1) * (n + 1) = n * n + 2 * n + 1 := by
      rw [Nat.add_mul, Nat.mul_add]; omega
    unfold patternLoopC
    simp only
    rw [e]
    split
    · obtain ⟨q, hq⟩ := mergeC_ok i (isPatternC env p i w).2.1 ps
      have := patternLoopC_lower w n (i + 1) q (by omega)
      unfold Counted.andThen
      simp only [hq]
      omega
    · have := patternLoopC_lower w n (i + 1) ps (by omega)
      omega

/-- A long word that is looked up takes quadratic time. -/
theorem breakWordC_lower (env : Env) (dict : Dictionary) (o : HOptions) (w : List Rune)
    (h1 : containsHyphen w = false) (h2 : o.minLength ≤ w.length) (h3 : dict.exceptions.get w = none) :
    w.length * w.length ≤ 2 * (hyphenatorBreakWordC env dict o w).steps := by
  have h := patternLoopC_lower (env := env) (p := dict.patterns) w w.length 0 (List.replicate 30 0) (by omega)
  unfold hyphenatorBreakWordC
  simp only [getC_res, containsHyphenC_res, h1, h3]
  rw [if_neg (by simpa using h2)]
  simp only
  unfold Counted.andThen
  cases (patternLoopC env dict.patterns w w.length 0 (List.replicate 30 0)).res with
  | error e => simp only; omega
  | ok q =>
    simp only [Counted.of]
    cases (slice q 1 ((q.length : Int) - 1) >>= fun q => clearEdges w.length q) with
    | error e => simp only; omega
    | ok c => simp only; omega

/-! ## Dictionaries that were loaded -/

theorem putAll_WF : ∀ (es : List (List Rune × List Int)) (t : Trie (List Int)), Trie.WF t → Trie.WF (putAll es t)
  | [], t, h => h
  | e :: es, t, h => putAll_WF es _ (Trie.WF_put e.2 e.1 t h)

theorem lastDef_found {es : List (List Rune × List Int)} {k : List Rune} {v : List Int} (h : lastDef es k = some v) : (k, v) ∈ es := by
  unfold lastDef at h
  obtain ⟨e, h1, rfl⟩ := Option.map_eq_some_iff.mp h
  have h2 := List.find?_some h1
  have h3 := List.mem_of_find?_eq_some h1
  simp only [beq_iff_eq] at h2
  subst h2
  simpa using h3

theorem putAll_bounded (es : List (List Rune × List Int)) (D A : Nat) (h : ∀ e ∈ es, e.1.length ≤ D ∧ e.2.length ≤ A) :
    Bounded (putAll es Trie.empty) D A where
  depth k n hn := by
    by_cases hk : k = []
    · simp [hk]
    · obtain ⟨s, v, hs⟩ := putAll_WF es _ Trie.WF_empty k n hk hn
      have hg : (putAll es Trie.empty).get (k ++ s) = some v := by
        rw [Trie.get_append, hn]; exact hs
      rw [putAll_get, Trie.get_empty, Option.or_none] at hg
      have := (h _ (lastDef_found hg)).1
      simp only [List.length_append] at this
      omega
  size k v hg := by
    rw [putAll_get, Trie.get_empty, Option.or_none] at hg
    exact (h _ (lastDef_found hg)).2

theorem gapMarks_length (isMark : Rune → Bool) (val : Rune → Int) (s : List Rune) : (gapMarks isMark val s).length ≤ s.length := by
  unfold gapMarks
  refine (List.length_filterMap_le _ _).trans ?_
  simp

theorem words_length {l w : List Rune} (h : w ∈ words l) : w.length ≤ l.length := by
  unfold words at h
  have h := (List.mem_filter.mp h).1
  clear * - h
  induction l generalizing w with
  | nil => simp at h; simp [h]
  | cons x l ih =>
    rw [List.splitOnP_cons] at h
    split at h
    · rcases List.mem_cons.mp h with rfl | h
      · simp
      · have := ih h; simp only [List.length_cons]; omega
    · cases hs : l.splitOnP (fun r => isSpace r) with
      | nil => exact absurd hs (List.splitOnP_ne_nil _ _)
      | cons a as =>
        rw [show l.splitOnP isSpace = a :: as from hs] at h ih
        rcases List.mem_cons.mp h with rfl | h
        · have := ih (w := a) (by simp); simp only [List.length_cons]; omega
        · have := ih (w := w) (by simp [h]); simp only [List.length_cons]; omega

/-- The dictionary of a file whose lines have at most `L` runes. -/
theorem loaded_bounded (env : Env) (id : List Rune) (lines : List (List Rune)) (L : Nat) (hL : ∀ l ∈ lines, l.length ≤ L)
    (dict : Dictionary) (h : loadPatterns env id lines = .ok dict) :
    Bounded dict.patterns L L ∧ Bounded dict.exceptions L L := by
  obtain ⟨i, h'⟩ := loadLines_spec env lines ⟨Trie.empty, Trie.empty, id⟩
  have e : loadLines env lines ⟨Trie.empty, Trie.empty, id⟩ = .ok dict := h
  rw [h'] at e
  cases e
  constructor
  · refine putAll_bounded _ L L fun e he => ?_
    unfold patternEntries at he
    obtain ⟨p, hp, rfl⟩ := List.mem_map.mp he
    obtain ⟨l, hl, hw⟩ := List.mem_flatMap.mp hp
    have h1 := hL l ((List.takeWhile_sublist _).subset (List.mem_filter.mp hl).1)
    have h2 := words_length hw
    have h3 := gapMarks_length env.isDigit digitVal p
    have h4 := List.length_filter_le (fun c => !env.isDigit c) p
    unfold patternLetters patternValues
    simp only [List.length_map]
    omega
  · refine putAll_bounded _ L L fun e he => ?_
    unfold exceptionEntries at he
    obtain ⟨l, hl, rfl⟩ := List.mem_map.mp he
    have h1 := hL l ((List.dropWhile_sublist _).subset (List.mem_of_mem_drop hl))
    unfold exceptionEntry
    split
    · simp
    · have h3 := gapMarks_length isHyphenRune (fun _ => 1) l
      have h4 := List.length_filter_le (fun r => decide (r ≠ 0x2D)) l
      simp only [List.length_map]
      omega

end Verif.Proofs
