import Verif.Proofs.HyphMerge

/-! # BreakWord of the hyphenator -/

namespace Verif.Proofs
open Verif.Go Verif.Model Verif.Spec

theorem containsHyphen_iff (word : List Rune) :
    containsHyphen word = true ↔ ∃ r ∈ word, isHyphenRune r = true := by
  induction word with
  | nil => simp [containsHyphen]
  | cons r rest ih =>
    by_cases h : isHyphenRune r = true
    · simp [containsHyphen, h]
    · simp [containsHyphen, h, ih]

/-- The final positions, from those of the pattern loop. -/
theorem finish_ok (n : Nat) (ps : List Int) (h : 30 ≤ ps.length) :
    ∃ q, (slice ps 1 ((ps.length : Int) - 1) >>= clearEdges n) = .ok q ∧
      (∀ i, i ≠ 0 → i ≠ n → q[i]? = if i + 2 < ps.length then ps[i + 1]? else none) ∧
      (∀ v, q[0]? = some v → v = 0 ∨ (v ≤ 0 ∧ ps[1]? = some v)) := by
  have hs : slice ps 1 ((ps.length : Int) - 1) = .ok ((ps.drop 1).take (ps.length - 2)) := by
    unfold slice
    rw [if_pos (by omega)]
    have e1 : (1 : Int).toNat = 1 := rfl
    have e2 : ((ps.length : Int) - 1).toNat - 1 = ps.length - 2 := by omega
    rw [e1, e2]
  rw [hs]
  simp only [ok_bind]
  have hm : ∀ i, ((ps.drop 1).take (ps.length - 2))[i]? = if i + 2 < ps.length then ps[i+1]? else none := by
    intro i
    rw [List.getElem?_take]
    by_cases hi : i < ps.length - 2
    · rw [if_pos hi, if_pos (by omega), List.getElem?_drop]; congr 1; omega
    · rw [if_neg hi, if_neg (by omega)]
  have hl : ((ps.drop 1).take (ps.length - 2)).length = ps.length - 2 := by simp; omega
  generalize (ps.drop 1).take (ps.length - 2) = m at hm hl
  unfold clearEdges
  have hi0 := index_ok (l := m) (i := 0) (by omega)
  have e0 : ((0 : Nat) : Int) = 0 := rfl
  rw [e0] at hi0
  rw [hi0]
  simp only [ok_bind]
  split
  · refine ⟨m.set 0 0, rfl, fun i h0 hn => ?_, fun v hv => ?_⟩
    · rw [List.getElem?_set_ne (by omega)]; exact hm i
    · rw [List.getElem?_set_self (by omega)] at hv; cases hv; exact Or.inl rfl
  · rename_i hp0
    have hz : ∀ v, m[0]? = some v → v = 0 ∨ (v ≤ 0 ∧ ps[1]? = some v) := by
      intro v hv
      have h1 := hm 0
      rw [if_pos (by omega), hv] at h1
      refine Or.inr ⟨?_, h1.symm⟩
      rw [List.getElem?_eq_some_iff] at hv
      obtain ⟨h1, h2⟩ := hv
      rw [h2] at hp0
      exact Int.not_lt.mp hp0
    split
    · rename_i hlen
      rw [index_ok hlen]
      simp only [ok_bind]
      split
      · refine ⟨m.set n 0, rfl, fun i h0 hn => ?_, fun v hv => ?_⟩
        · rw [List.getElem?_set_ne (by omega)]; exact hm i
        · rw [List.getElem?_set] at hv
          split at hv
          · cases hv; exact Or.inl rfl
          · exact hz v hv
      · exact ⟨m, rfl, fun i _ _ => hm i, hz⟩
    · exact ⟨m, rfl, fun i _ _ => hm i, hz⟩

/-- The three outcomes of BreakWord. -/
theorem breakWord_cases (env : Env) (dict : Dictionary) (o : HOptions) (word : List Rune) :
    ((containsHyphen word = true ∨ (word.length : Int) < o.minLength) ∧
      hyphenatorBreakWord env dict o word = .ok [word]) ∨
    (¬ (containsHyphen word = true ∨ (word.length : Int) < o.minLength) ∧
      ∃ ps, hyphenatorBreakWord env dict o word = splitAtPositions o word word.length ps ∧
        (dict.exceptions.get word = some ps ∨
          (dict.exceptions.get word = none ∧
            ∃ qs, Merged (Explored env dict.patterns word word.length) qs ∧
              ∀ i, i ≠ 0 → i ≠ word.length →
                ps[i]? = if i + 2 < qs.length then qs[i + 1]? else none))) := by
  unfold hyphenatorBreakWord
  simp only
  by_cases hc : containsHyphen word = true ∨ (word.length : Int) < o.minLength
  · left; exact ⟨hc, by rw [if_pos hc]⟩
  · right
    refine ⟨hc, ?_⟩
    rw [if_neg hc]
    cases he : dict.exceptions.get word with
    | some bp => exact ⟨bp, rfl, Or.inl rfl⟩
    | none =>
      obtain ⟨qs, h1, h2⟩ := patternLoop_ok env dict.patterns word
      obtain ⟨q, h3, h4, _⟩ := finish_ok word.length qs h2.len
      refine ⟨q, ?_, Or.inr ⟨rfl, qs, h2, h4⟩⟩
      rw [h1]
      simp only [ok_bind]
      cases hs : slice qs 1 ((qs.length : Int) - 1) with
      | error e => rw [hs] at h3; simp at h3
      | ok s =>
        rw [hs] at h3
        simp only [ok_bind] at h3 ⊢
        rw [h3]
        rfl

/-- The position before the first letter is never a hyphenation point of a word cut by the
patterns. -/
theorem breakWord_start (env : Env) (dict : Dictionary) (o : HOptions) (word : List Rune)
    (hc : ¬ (containsHyphen word = true ∨ (word.length : Int) < o.minLength))
    (he : dict.exceptions.get word = none) :
    ∃ ps, hyphenatorBreakWord env dict o word = splitAtPositions o word word.length ps ∧
      ∀ v, ps[0]? = some v → v = 0 := by
  unfold hyphenatorBreakWord
  simp only
  rw [if_neg hc]
  simp only [he]
  obtain ⟨qs, h1, h2⟩ := patternLoop_ok env dict.patterns word
  obtain ⟨q, h3, _, h4⟩ := finish_ok word.length qs h2.len
  refine ⟨q, ?_, fun v hv => ?_⟩
  rotate_left
  · rcases h4 v hv with h | ⟨h, h5⟩
    · exact h
    · have := h2.nonneg 1
      simp only [valAt, h5, Option.getD_some] at this
      omega
  rw [h1]
  simp only [ok_bind]
  cases hs : slice qs 1 ((qs.length : Int) - 1) with
  | error e => rw [hs] at h3; simp at h3
  | ok s =>
    rw [hs] at h3
    simp only [ok_bind] at h3 ⊢
    rw [h3]
    rfl

/-- BreakWord returns the word cut at some positions (none when it is not eligible). -/
theorem breakWord_cutAt (env : Env) (dict : Dictionary) (o : HOptions) (hr : 0 ≤ o.minRight)
    (word : List Rune) :
    ∃ cs, hyphenatorBreakWord env dict o word = .ok (cutAt word 0 cs) ∧
      cs.Pairwise (· < ·) ∧
      (∀ c ∈ cs, o.minRight ≤ (word.length : Int) - c ∧ o.minLeft ≤ (c : Int)) ∧
      (∀ c ∈ cs, ∀ d ∈ cs, d < c → o.minLeft ≤ (c : Int) - d) := by
  rcases breakWord_cases env dict o word with ⟨_, h⟩ | ⟨_, ps, h, _⟩
  · exact ⟨[], by simp [h, cutAt], by simp, by simp, by simp⟩
  · have hc := cutsOf_isCuts o word.length ps
    refine ⟨_, by rw [h, splitAtPositions_cuts o hr], hc.increasing, ?_, ?_⟩
    · intro c hcm
      have := (hc.mem_iff c).mp hcm
      exact ⟨this.2.1, this.2.2.1⟩
    · intro c hcm d hdm hlt
      exact ((hc.mem_iff c).mp hcm).2.2.2 d hdm hlt

theorem isCuts_congr {A B : Nat → Prop} {l r : Int} {n : Nat} {cs : List Nat}
    (h : IsCuts A l r n cs)
    (e : ∀ i : Nat, r ≤ (n : Int) - (i : Int) → l ≤ (i : Int) → (A i ↔ B i)) : IsCuts B l r n cs := by
  refine ⟨h.increasing, fun i => ?_⟩
  rw [h.mem_iff i]
  constructor
  · rintro ⟨h1, h2, h3, h4⟩; exact ⟨(e i h2 h3).mp h1, h2, h3, h4⟩
  · rintro ⟨h1, h2, h3, h4⟩; exact ⟨(e i h2 h3).mpr h1, h2, h3, h4⟩

theorem gapValue_unique {P : Patterns} {w : List Rune} {g : Nat} {u v : Int}
    (hu : GapValue P w g u) (hv : GapValue P w g v) : u = v := by
  have a : u ≤ v := by
    rcases hu.attained with h | ⟨a, vals, j, h1, h2, h3⟩
    · rw [h]; exact hv.nonneg
    · exact hv.greatest a vals j u h1 h2 h3
  have b : v ≤ u := by
    rcases hv.attained with h | ⟨a, vals, j, h1, h2, h3⟩
    · rw [h]; exact hu.nonneg
    · exact hu.greatest a vals j v h1 h2 h3
  omega

/-- A pattern has at most one value more than letters. -/
def WellFormed (P : Patterns) : Prop := ∀ k vals, P k = some vals → vals.length ≤ k.length + 1

theorem explored_occurs {env : Env} {pats : Trie (List Int)} {word : List Rune} {k a : Nat}
    {vals : List Int} (h : Explored env pats word k a vals) :
    Occurs (fun s => pats.get s) (dotted env.toLower word) a vals := by
  obtain ⟨_, n, h1, h2, h3⟩ := h
  rw [occurs_iff]
  refine ⟨n, ?_, by rw [dotted_length]; omega, h3⟩
  split at h1 <;> omega

/-- The values that matter are explored. -/
theorem occurs_explored {env : Env} {pats : Trie (List Int)} {word : List Rune} {a j : Nat}
    {vals : List Int} {u : Int}
    (hw : WellFormed (fun s => pats.get s))
    (h : Occurs (fun s => pats.get s) (dotted env.toLower word) a vals)
    (hj : vals[j]? = some u) (h2 : 2 ≤ a + j) (hL : a + j + 1 ≤ word.length) :
    Explored env pats word word.length a vals := by
  rw [occurs_iff] at h
  obtain ⟨n, h1, hn, hP⟩ := h
  rw [dotted_length] at hn
  have hjl : j < vals.length := (List.getElem?_eq_some_iff.mp hj).1
  have hv := hw _ _ hP
  rw [List.length_take, List.length_drop, dotted_length] at hv
  refine ⟨by omega, n, ?_, hn, hP⟩
  split
  · omega
  · exact h1

theorem merged_gapValue {env : Env} {pats : Trie (List Int)} {word : List Rune} {qs : List Int}
    (hw : WellFormed (fun s => pats.get s))
    (h : Merged (Explored env pats word word.length) qs) (g : Nat) (h2 : 2 ≤ g)
    (hL : g + 1 ≤ word.length) :
    GapValue (fun s => pats.get s) (dotted env.toLower word) g (valAt qs g) := by
  refine ⟨h.nonneg g, ?_, ?_⟩
  · rcases h.attained g with h0 | ⟨a, vals, j, hS, hj, hg⟩
    · exact Or.inl h0
    · exact Or.inr ⟨a, vals, j, explored_occurs hS, hj, hg⟩
  · intro a vals j u ho hj hg
    subst hg
    exact h.greatest _ a vals j u (occurs_explored hw ho hj h2 hL) hj rfl

theorem odd_iff {v : Int} (h : 0 ≤ v) : (v ≠ 0 ∧ Int.tmod v 2 ≠ 0) ↔ v % 2 = 1 := by
  rw [Int.tmod_eq_emod_of_nonneg h]; omega

/-- The main theorem on patterns, with the condition under which no value is cut off. -/
theorem breakWord_liang (env : Env) (dict : Dictionary) (o : HOptions) (word : List Rune)
    (hw : WellFormed (fun s => dict.patterns.get s))
    (hl : 1 ≤ o.minLeft) (hr : 2 ≤ o.minRight)
    (hh : ∀ r ∈ word, isHyphenRune r = false) (hm : o.minLength ≤ word.length)
    (he : dict.exceptions.get word = none)
    (hreach : word.length + 1 ≤ 30 + o.minRight - 2 ∨ ∃ a vals, a < word.length ∧ 2 ≤ a + vals.length ∧
      Explored env dict.patterns word word.length a vals ∧ vals ≠ [] ∧
      word.length + 3 ≤ a + vals.length + o.minRight) :
    ∃ cuts, IsCuts (fun i => ∃ v, GapValue (fun s => dict.patterns.get s)
        (dotted env.toLower word) (i + 1) v ∧ v % 2 = 1) o.minLeft o.minRight word.length cuts ∧
      hyphenatorBreakWord env dict o word = .ok (cutAt word 0 cuts) := by
  rcases breakWord_cases env dict o word with ⟨hc, _⟩ | ⟨_, ps, hps, hcase⟩
  · exfalso
    rcases hc with hc | hc
    · obtain ⟨r, h1, h2⟩ := (containsHyphen_iff word).mp hc
      rw [hh r h1] at h2; exact absurd h2 (by decide)
    · omega
  · rcases hcase with h | ⟨_, qs, hmer, hq⟩
    · rw [he] at h; cases h
    · refine ⟨cutsOf o word.length ps 0 0, ?_, by rw [hps, splitAtPositions_cuts o (by omega)]⟩
      refine isCuts_congr (cutsOf_isCuts o word.length ps) ?_
      intro i hri hli
      have hi1 : i ≠ 0 := by omega
      have hi2 : i ≠ word.length := by omega
      have hlen : i + 2 < qs.length := by
        have h30 := hmer.len
        rcases hreach with h | ⟨a, vals, _, _, h1, h2, h3⟩
        · omega
        · have := hmer.reach a vals h1 h2
          omega
      have hqi := hq i hi1 hi2
      rw [if_pos hlen] at hqi
      have hval : qs[i + 1]? = some (valAt qs (i + 1)) := by
        unfold valAt
        rw [List.getElem?_eq_getElem (by omega)]
        rfl
      have hgv := merged_gapValue hw hmer (i + 1) (by omega) (by omega)
      unfold OddAt
      rw [hqi, hval]
      constructor
      · rintro ⟨v, hv, hodd⟩
        simp only [Option.some.injEq] at hv
        subst hv
        exact ⟨_, hgv, (odd_iff hgv.nonneg).mp hodd⟩
      · rintro ⟨v, hv, hodd⟩
        have : v = valAt qs (i + 1) := gapValue_unique hv hgv
        subst this
        exact ⟨_, rfl, (odd_iff hgv.nonneg).mpr hodd⟩

/-- Exactly which of the gaps that patterns allow are considered, for words of any length. -/
theorem breakWord_exact (env : Env) (dict : Dictionary) (o : HOptions) (word : List Rune)
    (hw : WellFormed (fun s => dict.patterns.get s))
    (hl : 1 ≤ o.minLeft) (hr : 2 ≤ o.minRight)
    (hh : ∀ r ∈ word, isHyphenRune r = false) (hm : o.minLength ≤ word.length)
    (he : dict.exceptions.get word = none) :
    ∃ cuts, IsCuts (fun i => (∃ v, GapValue (fun s => dict.patterns.get s)
        (dotted env.toLower word) (i + 1) v ∧ v % 2 = 1) ∧
        (i < 28 ∨ ∃ a vals j u, Occurs (fun s => dict.patterns.get s) (dotted env.toLower word) a vals ∧
          a < word.length ∧ vals[j]? = some u ∧ i + 1 < a + j)) o.minLeft o.minRight word.length cuts ∧
      hyphenatorBreakWord env dict o word = .ok (cutAt word 0 cuts) := by
  rcases breakWord_cases env dict o word with ⟨hc, _⟩ | ⟨_, ps, hps, hcase⟩
  · exfalso
    rcases hc with hc | hc
    · obtain ⟨r, h1, h2⟩ := (containsHyphen_iff word).mp hc
      rw [hh r h1] at h2; exact absurd h2 (by decide)
    · omega
  · rcases hcase with h | ⟨_, qs, hmer, hq⟩
    · rw [he] at h; cases h
    · refine ⟨cutsOf o word.length ps 0 0, ?_, by rw [hps, splitAtPositions_cuts o (by omega)]⟩
      refine isCuts_congr (cutsOf_isCuts o word.length ps) ?_
      intro i hri hli
      have hi1 : i ≠ 0 := by omega
      have hi2 : i ≠ word.length := by omega
      have hkept : (i < 28 ∨ ∃ a vals j u, Occurs (fun s => dict.patterns.get s)
          (dotted env.toLower word) a vals ∧ a < word.length ∧ vals[j]? = some u ∧ i + 1 < a + j) ↔
          i + 2 < qs.length := by
        constructor
        · rintro (h | ⟨a, vals, j, u, h1, h2, hj, h3⟩)
          · have := hmer.len; omega
          · have hjl : j < vals.length := (List.getElem?_eq_some_iff.mp hj).1
            have hne : vals ≠ [] := by rintro rfl; simp at hjl
            have hex : Explored env dict.patterns word word.length a vals := by
              rw [occurs_iff] at h1
              obtain ⟨n, hn1, hn2, hP⟩ := h1
              rw [dotted_length] at hn2
              refine ⟨h2, n, ?_, hn2, hP⟩
              split
              · have := hw _ _ hP
                rw [List.length_take, List.length_drop, dotted_length] at this
                omega
              · exact hn1
            have := hmer.reach a vals hex hne
            omega
        · intro h
          rcases hmer.tight with h0 | ⟨a, vals, hS, hne, hl⟩
          · left; omega
          · have hpos := List.length_pos_iff.mpr hne
            exact Or.inr ⟨a, vals, vals.length - 1, vals[vals.length - 1], explored_occurs hS, hS.1,
              List.getElem?_eq_getElem (by omega), by omega⟩
      have hqi := hq i hi1 hi2
      rw [hkept]
      unfold OddAt
      by_cases hlen : i + 2 < qs.length
      · rw [if_pos hlen] at hqi
        have hval : qs[i + 1]? = some (valAt qs (i + 1)) := by
          unfold valAt
          rw [List.getElem?_eq_getElem (by omega)]
          rfl
        have hgv := merged_gapValue hw hmer (i + 1) (by omega) (by omega)
        rw [hqi, hval]
        constructor
        · rintro ⟨v, hv, hodd⟩
          simp only [Option.some.injEq] at hv
          subst hv
          exact ⟨⟨_, hgv, (odd_iff hgv.nonneg).mp hodd⟩, hlen⟩
        · rintro ⟨⟨v, hv, hodd⟩, _⟩
          have : v = valAt qs (i + 1) := gapValue_unique hv hgv
          subst this
          exact ⟨_, rfl, (odd_iff hgv.nonneg).mpr hodd⟩
      · rw [if_neg hlen] at hqi
        constructor
        · rintro ⟨v, hv, _⟩; rw [hqi] at hv; cases hv
        · rintro ⟨_, h⟩; exact absurd h hlen

end Verif.Proofs
