import Verif.Proofs.HyphSplit

/-! # Lemmas on mergeBreakPoints and isPattern -/

namespace Verif.Proofs
open Verif.Go Verif.Model Verif.Spec

/-- The value at `g`, 0 when not allocated. -/
def valAt (ps : List Int) (g : Nat) : Int := (ps[g]?).getD 0

theorem growPositions_val (ps : List Int) (m : Int) (g : Nat) :
    valAt (growPositions ps m) g = valAt ps g := by
  unfold growPositions valAt
  split
  · rw [List.getElem?_append]
    split
    · rfl
    · rename_i h
      rw [List.getElem?_replicate, List.getElem?_eq_none (by omega)]
      split <;> rfl
  · rfl

theorem growPositions_length (ps : List Int) (k : Nat) :
    (growPositions ps ((k : Int) - ps.length + 1)).length = max ps.length (k + 1) := by
  unfold growPositions
  split
  · simp; omega
  · omega

theorem valAt_set (ps : List Int) (k : Nat) (v : Int) (hk : k < ps.length) (g : Nat) :
    valAt (ps.set k v) g = if g = k then v else valAt ps g := by
  unfold valAt
  rw [List.getElem?_set]
  by_cases h : k = g
  · subst h; simp [hk]
  · simp [h, Ne.symm h]

theorem mergeOne_spec (a : Nat) : ∀ (p : List Int) (k : Nat) (ps : List Int),
    ∃ ps', mergeOne a p k ps = .ok ps' ∧
      ps'.length = (if p = [] then ps.length else max ps.length (a + k + p.length)) ∧
      ∀ g, valAt ps' g =
        match (if a + k ≤ g then p[g - (a + k)]? else none) with
        | some u => max (valAt ps g) u
        | none => valAt ps g := by
  intro p
  induction p with
  | nil =>
    intro k ps
    refine ⟨ps, rfl, by simp, fun g => ?_⟩
    split <;> simp_all
  | cons num rest ih =>
    intro k ps
    simp only [mergeOne]
    have hcast : ((a : Int) + (k : Int) - (ps.length : Int) + 1) = ((a + k : Nat) : Int) - ps.length + 1 := by
      omega
    rw [hcast]
    have hlen := growPositions_length ps (a + k)
    have hval := growPositions_val ps (((a + k : Nat) : Int) - ps.length + 1)
    generalize growPositions ps (((a + k : Nat) : Int) - ps.length + 1) = q at hlen hval
    have hlt : a + k < q.length := by omega
    rw [index_ok hlt]
    simp only [ok_bind]
    have hcur : q[a + k] = valAt ps (a + k) := by
      rw [← hval]; simp [valAt, hlt]
    -- the list after the optional update
    have fin : ∀ q', q'.length = q.length →
        (∀ g, valAt q' g = if g = a + k then max (valAt ps g) num else valAt ps g) →
        ∃ ps', mergeOne a rest (k + 1) q' = .ok ps' ∧
          ps'.length = max ps.length (a + k + (num :: rest).length) ∧
          ∀ g, valAt ps' g =
            match (if a + k ≤ g then (num :: rest)[g - (a + k)]? else none) with
            | some u => max (valAt ps g) u
            | none => valAt ps g := by
      intro q' hl' hv'
      obtain ⟨ps', h1, h2, h3⟩ := ih (k + 1) q'
      refine ⟨ps', h1, ?_, ?_⟩
      · rw [h2, hl', hlen]
        split
        · rename_i he; subst he; simp
        · rw [List.length_cons]; omega
      · intro g
        rw [h3 g, hv' g]
        by_cases hg : g = a + k
        · subst hg
          simp [show ¬ (a + (k + 1) ≤ a + k) by omega]
        · by_cases hg2 : a + k ≤ g
          · have e1 : a + (k + 1) ≤ g := by omega
            have e2 : g - (a + k) = (g - (a + (k + 1))) + 1 := by omega
            simp only [e1, hg2, if_true, e2, List.getElem?_cons_succ, hg, if_false]
          · simp [hg, hg2, show ¬ (a + (k + 1) ≤ g) by omega]
    simp only [reduceCtorEq, if_false]
    split
    · rename_i hgt
      apply fin
      · simp
      · intro g
        rw [valAt_set _ _ _ hlt, hval]
        by_cases hg : g = a + k
        · subst hg; simp; omega
        · simp [hg]
    · rename_i hgt
      apply fin
      · rfl
      · intro g
        rw [hval]
        by_cases hg : g = a + k
        · subst hg; simp; omega
        · simp [hg]

/-- `S a vals`: values `vals` were merged at offset `a`. -/
structure Merged (S : Nat → List Int → Prop) (ps : List Int) : Prop where
  nonneg : ∀ g, 0 ≤ valAt ps g
  attained : ∀ g, valAt ps g = 0 ∨ ∃ a vals j, S a vals ∧ vals[j]? = some (valAt ps g) ∧ a + j = g
  greatest : ∀ g a vals j u, S a vals → vals[j]? = some u → a + j = g → u ≤ valAt ps g
  reach : ∀ a vals, S a vals → vals ≠ [] → a + vals.length ≤ ps.length
  len : 30 ≤ ps.length
  tight : ps.length = 30 ∨ ∃ a vals, S a vals ∧ vals ≠ [] ∧ ps.length = a + vals.length

theorem Merged.congr {S T : Nat → List Int → Prop} {ps} (h : Merged S ps)
    (e : ∀ a v, S a v ↔ T a v) : Merged T ps := by
  have : S = T := by funext a v; exact propext (e a v)
  exact this ▸ h

theorem mergeOne_merged {S ps} (h : Merged S ps) (a : Nat) (p : List Int) :
    ∃ ps', mergeOne a p 0 ps = .ok ps' ∧
      Merged (fun b v => S b v ∨ (b = a ∧ v = p)) ps' := by
  obtain ⟨ps', h1, h2, h3⟩ := mergeOne_spec a p 0 ps
  refine ⟨ps', h1, ?_⟩
  simp only [Nat.add_zero] at h2 h3
  have hge : ∀ g, valAt ps g ≤ valAt ps' g := by
    intro g; rw [h3 g]; split
    · exact Int.le_max_left _ _
    · exact Int.le_refl _
  refine ⟨fun g => Int.le_trans (h.nonneg g) (hge g), ?_, ?_, ?_, ?_, ?_⟩
  · intro g
    have old : valAt ps' g = valAt ps g → valAt ps' g = 0 ∨ ∃ b vals j,
        (S b vals ∨ (b = a ∧ vals = p)) ∧ vals[j]? = some (valAt ps' g) ∧ b + j = g := by
      intro he
      rw [he]
      rcases h.attained g with h0 | ⟨b, vals, j, hS, hj, hg⟩
      · exact Or.inl h0
      · exact Or.inr ⟨b, vals, j, Or.inl hS, hj, hg⟩
    have h3g := h3 g
    split at h3g
    · rename_i u hu
      by_cases hmx : valAt ps g < u
      · split at hu
        · rename_i hag
          right
          refine ⟨a, p, g - a, Or.inr ⟨rfl, rfl⟩, ?_, by omega⟩
          rw [hu, h3g, Int.max_eq_right (by omega)]
        · cases hu
      · exact old (by rw [h3g, Int.max_eq_left (by omega)])
    · exact old h3g
  · rintro g b vals j u (hS | ⟨rfl, rfl⟩) hj hg
    · exact Int.le_trans (h.greatest g b vals j u hS hj hg) (hge g)
    · have h3g := h3 g
      rw [if_pos (by omega), show g - b = j by omega, hj] at h3g
      simp only at h3g
      omega
  · rintro b vals (hS | ⟨rfl, rfl⟩) hne
    · have := h.reach b vals hS hne
      rw [h2]; split <;> omega
    · rw [h2, if_neg hne]; omega
  · have := h.len
    rw [h2]; split <;> omega
  · have old : ps'.length = ps.length → ps'.length = 30 ∨ ∃ b vals,
        (S b vals ∨ (b = a ∧ vals = p)) ∧ vals ≠ [] ∧ ps'.length = b + vals.length := by
      intro he
      rw [he]
      rcases h.tight with h0 | ⟨b, vals, hS, hne, hl⟩
      · exact Or.inl h0
      · exact Or.inr ⟨b, vals, Or.inl hS, hne, hl⟩
    split at h2
    · exact old h2
    · rename_i hp
      by_cases hm : a + p.length ≤ ps.length
      · exact old (by omega)
      · exact Or.inr ⟨a, p, Or.inr ⟨rfl, rfl⟩, hp, by omega⟩

theorem mergeBreakPoints_merged : ∀ (pp : List (List Int)) (S : Nat → List Int → Prop) (ps : List Int)
    (a : Nat), Merged S ps →
    ∃ ps', mergeBreakPoints ps pp a = .ok ps' ∧
      Merged (fun b v => S b v ∨ (b = a ∧ v ∈ pp)) ps' := by
  intro pp
  induction pp with
  | nil =>
    intro S ps a h
    exact ⟨ps, rfl, h.congr (by simp)⟩
  | cons p pp ih =>
    intro S ps a h
    obtain ⟨ps1, h1, hm1⟩ := mergeOne_merged h a p
    obtain ⟨ps2, h2, hm2⟩ := ih _ ps1 a hm1
    refine ⟨ps2, by simp [mergeBreakPoints, h1, h2], hm2.congr ?_⟩
    intro b v
    simp only [List.mem_cons]
    constructor
    · rintro ((h | ⟨h, h'⟩) | ⟨h, h'⟩)
      · exact Or.inl h
      · exact Or.inr ⟨h, Or.inl h'⟩
      · exact Or.inr ⟨h, Or.inr h'⟩
    · rintro (h | ⟨h, h' | h'⟩)
      · exact Or.inl (Or.inl h)
      · exact Or.inl (Or.inr ⟨h, h'⟩)
      · exact Or.inr ⟨h, h'⟩

/-! ## isPattern -/

theorem isPatternLoop_spec (env : Env) (pats : Trie (List Int)) :
    ∀ (letters frag : List Rune) (result : List (List Int)),
      (isPatternLoop env pats letters frag result).1 = frag ++ letters.map env.toLower ∧
      ∀ p, p ∈ (isPatternLoop env pats letters frag result).2 ↔
        (p ∈ result ∨ ∃ n, 1 ≤ n ∧ n ≤ letters.length ∧
          pats.get (frag ++ (letters.map env.toLower).take n) = some p) := by
  intro letters
  induction letters with
  | nil =>
    intro frag result
    refine ⟨by simp [isPatternLoop], fun p => ?_⟩
    simp only [isPatternLoop]
    constructor
    · exact Or.inl
    · rintro (h | ⟨n, h1, h2, _⟩)
      · exact h
      · simp at h2; omega
  | cons c rest ih =>
    intro frag result
    have key : ∀ p, (∃ n, 1 ≤ n ∧ n ≤ (c :: rest).length ∧
        pats.get (frag ++ ((c :: rest).map env.toLower).take n) = some p) ↔
        (pats.get (frag ++ [env.toLower c]) = some p ∨ ∃ n, 1 ≤ n ∧ n ≤ rest.length ∧
          pats.get ((frag ++ [env.toLower c]) ++ (rest.map env.toLower).take n) = some p) := by
      intro p
      constructor
      · rintro ⟨n, h1, h2, h3⟩
        obtain ⟨m, rfl⟩ : ∃ m, n = m + 1 := ⟨n - 1, by omega⟩
        rw [List.map_cons, List.take_succ_cons] at h3
        by_cases hm : m = 0
        · subst hm; left; simpa using h3
        · right
          refine ⟨m, by omega, by simpa using h2, ?_⟩
          simpa using h3
      · rintro (h | ⟨n, h1, h2, h3⟩)
        · exact ⟨1, by omega, by simp, by simpa using h⟩
        · exact ⟨n + 1, by omega, by simpa using h2, by simpa using h3⟩
    simp only [isPatternLoop]
    cases hg : pats.get (frag ++ [env.toLower c]) with
    | none =>
      obtain ⟨i1, i2⟩ := ih (frag ++ [env.toLower c]) result
      refine ⟨by simpa using i1, fun p => ?_⟩
      rw [i2 p, key p, hg]
      simp
    | some q =>
      obtain ⟨i1, i2⟩ := ih (frag ++ [env.toLower c]) (result ++ [q])
      refine ⟨by simpa using i1, fun p => ?_⟩
      rw [i2 p, key p, hg]
      simp only [List.mem_append, List.mem_singleton, Option.some.injEq]
      constructor
      · rintro ((h | h) | h)
        · exact Or.inl h
        · exact Or.inr (Or.inl h.symm)
        · exact Or.inr (Or.inr h)
      · rintro (h | h | h)
        · exact Or.inl (Or.inl h)
        · exact Or.inl (Or.inr h.symm)
        · exact Or.inr h

theorem isPattern_flag (env : Env) (pats) (i : Nat) (word) :
    (isPattern env pats i word).2 = decide ((isPattern env pats i word).1.length > 0) := by
  rfl

theorem take_append_singleton (l : List Rune) (x : Rune) (n : Nat) :
    (l ++ [x]).take n = if n ≤ l.length then l.take n else l ++ [x] := by
  split
  · rename_i h; rw [List.take_append_of_le_length h]
  · rename_i h; rw [List.take_of_length_le (by simp; omega)]

theorem isPattern_mem (env : Env) (pats : Trie (List Int)) (i : Nat) (word : List Rune)
    (hi : i ≤ word.length) (p : List Int) :
    p ∈ (isPattern env pats i word).1 ↔
      ∃ n, (if i = 0 then 2 else 1) ≤ n ∧ i + n ≤ word.length + 2 ∧
        pats.get (((dotted env.toLower word).drop i).take n) = some p := by
  -- what the function returns, for given initial fragment and letters
  have core : ∀ (frag letters : List Rune),
      (p ∈ (match pats.get ((isPatternLoop env pats letters frag []).1 ++ [0x2E]) with
        | none => (isPatternLoop env pats letters frag []).2
        | some positions => (isPatternLoop env pats letters frag []).2 ++ [positions])) ↔
      ∃ n, 1 ≤ n ∧ n ≤ letters.length + 1 ∧
        pats.get (frag ++ (letters.map env.toLower ++ [0x2E]).take n) = some p := by
    intro frag letters
    obtain ⟨h1, h2⟩ := isPatternLoop_spec env pats letters frag []
    rw [h1]
    have e : (∃ n, 1 ≤ n ∧ n ≤ letters.length + 1 ∧
        pats.get (frag ++ (letters.map env.toLower ++ [0x2E]).take n) = some p) ↔
        ((∃ n, 1 ≤ n ∧ n ≤ letters.length ∧
          pats.get (frag ++ (letters.map env.toLower).take n) = some p) ∨
          pats.get (frag ++ letters.map env.toLower ++ [0x2E]) = some p) := by
      constructor
      · rintro ⟨n, a, b, c⟩
        rw [take_append_singleton] at c
        split at c
        · rename_i hn; exact Or.inl ⟨n, a, by simpa using hn, c⟩
        · exact Or.inr (by simpa using c)
      · rintro (⟨n, a, b, c⟩ | c)
        · exact ⟨n, a, by omega, by rw [take_append_singleton, if_pos (by simpa using b)]; exact c⟩
        · exact ⟨letters.length + 1, by omega, by omega, by
            rw [take_append_singleton, if_neg (by simp)]; simpa using c⟩
    rw [e]
    cases hg : pats.get (frag ++ letters.map env.toLower ++ [0x2E]) with
    | none => simp [h2]
    | some q =>
      simp only [List.mem_append, List.mem_singleton, h2, List.not_mem_nil, false_or,
        Option.some.injEq]
      constructor
      · rintro (h | h)
        · exact Or.inl h
        · exact Or.inr h.symm
      · rintro (h | h)
        · exact Or.inl h
        · exact Or.inr h.symm
  by_cases h0 : i = 0
  · subst h0
    have := core [0x2E] word
    simp only [isPattern, if_true, List.drop_zero]
    refine Iff.trans this ?_
    constructor
    · rintro ⟨n, a, b, c⟩
      refine ⟨n + 1, by omega, by omega, ?_⟩
      simpa [dotted] using c
    · rintro ⟨n, a, b, c⟩
      obtain ⟨m, rfl⟩ : ∃ m, n = m + 1 := ⟨n - 1, by omega⟩
      refine ⟨m, by omega, by omega, ?_⟩
      simpa [dotted] using c
  · have := core [] (word.drop (i - 1))
    simp only [isPattern, h0, if_false]
    refine Iff.trans this ?_
    have hd : (dotted env.toLower word).drop i = (word.drop (i - 1)).map env.toLower ++ [0x2E] := by
      obtain ⟨m, rfl⟩ : ∃ m, i = m + 1 := ⟨i - 1, by omega⟩
      simp only [dotted, List.drop_succ_cons, Nat.add_sub_cancel]
      rw [List.drop_append_of_le_length (by simp; omega), List.map_drop]
    rw [hd]
    constructor
    · rintro ⟨n, a, b, c⟩
      rw [List.length_drop] at b
      exact ⟨n, a, by omega, by simpa using c⟩
    · rintro ⟨n, a, b, c⟩
      refine ⟨n, a, ?_, by simpa using c⟩
      rw [List.length_drop]; omega

theorem dotted_length (f : Rune → Rune) (w : List Rune) : (dotted f w).length = w.length + 2 := by
  simp [dotted]

theorem occurs_iff (P : Patterns) (w : List Rune) (a : Nat) (vals : List Int) :
    Occurs P w a vals ↔ ∃ n, 1 ≤ n ∧ a + n ≤ w.length ∧ P ((w.drop a).take n) = some vals := by
  constructor
  · rintro ⟨pre, frag, post, rfl, rfl, hne, hP⟩
    have : 0 < frag.length := List.length_pos_iff.mpr hne
    refine ⟨frag.length, by omega, by simp, ?_⟩
    simpa using hP
  · rintro ⟨n, h1, h2, hP⟩
    refine ⟨w.take a, (w.drop a).take n, w.drop (a + n), ?_, by simp; omega, ?_, hP⟩
    · rw [List.append_assoc, ← List.drop_drop, List.take_append_drop, List.take_append_drop]
    · intro he
      have : ((w.drop a).take n).length = 0 := by rw [he]; rfl
      rw [List.length_take, List.length_drop] at this
      omega

/-- Occurrences that the code explores. -/
def Explored (env : Env) (pats : Trie (List Int)) (word : List Rune) (k : Nat) (a : Nat)
    (vals : List Int) : Prop :=
  a < k ∧ ∃ n, (if a = 0 then 2 else 1) ≤ n ∧ a + n ≤ word.length + 2 ∧
        pats.get (((dotted env.toLower word).drop a).take n) = some vals

theorem patternLoop_merged (env : Env) (pats : Trie (List Int)) (word : List Rune) :
    ∀ (n i : Nat) (ps : List Int), i + n ≤ word.length → Merged (Explored env pats word i) ps →
      ∃ ps', patternLoop env pats word n i ps = .ok ps' ∧
        Merged (Explored env pats word (i + n)) ps' := by
  intro n
  induction n with
  | zero => intro i ps _ h; exact ⟨ps, rfl, h⟩
  | succ n ih =>
    intro i ps hi h
    have hmem := isPattern_mem env pats i word (by omega)
    have hadd : i + (n + 1) = (i + 1) + n := by omega
    rw [hadd]
    have ext : ∀ a v, (Explored env pats word i a v ∨ (a = i ∧ v ∈ (isPattern env pats i word).1)) ↔
        Explored env pats word (i + 1) a v := by
      intro a v
      unfold Explored
      constructor
      · rintro (⟨h1, h2⟩ | ⟨rfl, h2⟩)
        · exact ⟨by omega, h2⟩
        · exact ⟨by omega, (hmem v).mp h2⟩
      · rintro ⟨h1, h2⟩
        by_cases hai : a = i
        · subst hai; exact Or.inr ⟨rfl, (hmem v).mpr h2⟩
        · exact Or.inl ⟨by omega, h2⟩
    simp only [patternLoop]
    rw [isPattern_flag]
    split
    · obtain ⟨ps1, h1, hm1⟩ := mergeBreakPoints_merged (isPattern env pats i word).1 _ ps i h
      rw [h1]
      exact ih (i + 1) ps1 (by omega) (hm1.congr ext)
    · rename_i hlen
      have he : (isPattern env pats i word).1 = [] := by
        apply List.length_eq_zero_iff.mp
        simp at hlen; simp [hlen]
      refine ih (i + 1) ps (by omega) (h.congr ?_)
      intro a v
      rw [← ext a v, he]
      simp

theorem merged_init (env : Env) (pats : Trie (List Int)) (word : List Rune) :
    Merged (Explored env pats word 0) (List.replicate 30 0) := by
  have hv : ∀ g, valAt (List.replicate 30 0) g = 0 := by
    intro g; unfold valAt; rw [List.getElem?_replicate]; split <;> rfl
  refine ⟨fun g => by rw [hv]; exact Int.le_refl _, fun g => Or.inl (hv g), ?_, ?_, by simp, Or.inl (by simp)⟩
  · rintro g a vals j u ⟨h, _⟩; omega
  · rintro a vals ⟨h, _⟩; omega

/-- Positions computed by the pattern loop. -/
theorem patternLoop_ok (env : Env) (pats : Trie (List Int)) (word : List Rune) :
    ∃ ps, patternLoop env pats word word.length 0 (List.replicate 30 0) = .ok ps ∧
      Merged (Explored env pats word word.length) ps := by
  have := patternLoop_merged env pats word word.length 0 _ (by omega) (merged_init env pats word)
  simpa using this

end Verif.Proofs
