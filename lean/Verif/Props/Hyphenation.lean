import Verif.Props.Words
import Verif.Proofs.Patterns

/-! # Properties C09–C16: hyphenation -/

namespace Verif.Props
open Verif.Go Verif.Model Verif.Spec Verif.Proofs

/-- A small dictionary used in examples: patterns `a1b`, `b2c`, `1d`, exception `fo-o-bar`. -/
def sampleLines : List (List Rune) :=
  [runesOf "\\patterns{", runesOf "a1b b2c", runesOf "% comment", runesOf "1d", runesOf "}",
   runesOf "\\hyphenation{", runesOf "fo-o-bar", runesOf "}"]

/-- The dictionary loaded from a list of lines (empty if loading panics, which never happens). -/
def dictOf (lines : List (List Rune)) : Dictionary :=
  match loadPatterns Env.ascii [] lines with
  | .ok d => d
  | .error _ => ⟨.empty, .empty, []⟩

/-! ## C09 (see `C09_hyphenator_partition` in Props/Words) -/

/-- The condition on minRight is needed: with a negative minimum, a value after the last letter makes
BreakWord slice beyond the end of the word. -/
theorem C09_negative_minRight_panics :
    hyphenatorBreakWord Env.ascii
      ⟨.empty, ((Trie.empty.put (runesOf "ab.") (some [0, 0, 0, 0, 1])).1), []⟩
      ⟨0, 0, -2⟩ (runesOf "ab") = .error .slice := by decide

example : hyphenatorBreakWord Env.ascii (dictOf sampleLines) ⟨4, 2, 2⟩ (runesOf "aabbdcc") =
    .ok [runesOf "aa", runesOf "bb", runesOf "dcc"] := by decide

/-! ## C10 -/

/-- **C10.** When a word is broken, every part but the last has at least `minLeft` runes, and the last
one has at least `minRight`. -/
theorem C10_min_lengths (env : Env) (dict : Dictionary) (o : HOptions) (hr : 0 ≤ o.minRight)
    (word : List Rune) :
    ∃ parts, hyphenatorBreakWord env dict o word = .ok parts ∧
      (parts.length ≠ 1 →
        (∀ p ∈ parts.dropLast, o.minLeft ≤ (p.length : Int)) ∧
        (∀ p, parts.getLast? = some p → o.minRight ≤ (p.length : Int))) := by
  obtain ⟨cs, h1, h2, h3, h4⟩ := breakWord_cutAt env dict o hr word
  refine ⟨_, h1, fun hne => ?_⟩
  have hcs : cs ≠ [] := by
    intro h; subst h; simp [cutAt] at hne
  exact cutAt_lengths word o.minLeft o.minRight cs 0 h2
    (fun c hc => ⟨Nat.zero_le _, (h3 c hc).1, by have := (h3 c hc).1; omega⟩)
    (fun c hc => by have := (h3 c hc).2; omega) h4 hcs

/-- **C10.** With minima of at least 1, no part of a non-empty word is empty. -/
theorem C10_no_empty_part (env : Env) (dict : Dictionary) (o : HOptions) (hl : 1 ≤ o.minLeft)
    (hr : 1 ≤ o.minRight) (word : List Rune) (hw : word ≠ []) :
    ∃ parts, hyphenatorBreakWord env dict o word = .ok parts ∧ ∀ p ∈ parts, p ≠ [] := by
  obtain ⟨parts, h1, h2⟩ := C10_min_lengths env dict o (by omega) word
  obtain ⟨parts', h1', hne, hfl⟩ := C09_hyphenator_partition env dict o (by omega) word
  rw [h1] at h1'
  cases h1'
  refine ⟨parts, h1, fun p hp hpe => ?_⟩
  subst hpe
  by_cases hlen : parts.length = 1
  · obtain ⟨q, hq⟩ := List.length_eq_one_iff.mp hlen
    subst hq
    simp at hp hfl
    subst hp
    exact hw hfl.symm
  · obtain ⟨h3, h4⟩ := h2 hlen
    have hsplit := List.dropLast_concat_getLast hne
    rw [← hsplit] at hp
    rcases List.mem_append.mp hp with hp | hp
    · have := h3 [] hp; simp at this; omega
    · simp only [List.mem_singleton] at hp
      have := h4 [] (by rw [List.getLast?_eq_some_getLast hne, ← hp])
      simp at this; omega

example : hyphenatorBreakWord Env.ascii (dictOf sampleLines) ⟨4, 3, 3⟩ (runesOf "aabbbdccd") =
    .ok [runesOf "aabbb", runesOf "dccd"] := by decide

/-! ## C11 -/

/-- **C11.** Words shorter than `minLength` and words with a hyphen are returned whole. -/
theorem C11_not_eligible (env : Env) (dict : Dictionary) (o : HOptions) (word : List Rune)
    (h : (word.length : Int) < o.minLength ∨ ∃ r ∈ word, isHyphenRune r = true) :
    hyphenatorBreakWord env dict o word = .ok [word] := by
  rcases breakWord_cases env dict o word with ⟨_, h1⟩ | ⟨h1, _⟩
  · exact h1
  · exfalso
    apply h1
    rcases h with h | h
    · exact Or.inr h
    · exact Or.inl ((containsHyphen_iff word).mpr h)

example : hyphenatorBreakWord Env.ascii (dictOf sampleLines) ⟨4, 2, 2⟩ (runesOf "aab-bdcc") =
    .ok [runesOf "aab-bdcc"] := C11_not_eligible _ _ _ _ (Or.inr ⟨0x2D, by decide, by decide⟩)

/-! ## C12

The full statement, for words of any length, is false: see `C12_long_word_fails`. -/

/-- The positions where Liang's algorithm allows a break: the gap before letter `i` of the word is the
gap before index `i + 1` of ".word.", and its value is odd. -/
def LiangAllows (env : Env) (dict : Dictionary) (word : List Rune) (i : Nat) : Prop :=
  ∃ v, GapValue (fun s => dict.patterns.get s) (dotted env.toLower word) (i + 1) v ∧ v % 2 = 1

/-- **C12** for words of at most 29 letters (missing: longer words, for which the last value may be
lost). Any dictionary whose patterns have at most one value more than letters; any minima with
`minLeft ≥ 1`, `minRight ≥ 2`. -/
theorem C12_liang_partial (env : Env) (dict : Dictionary) (o : HOptions) (word : List Rune)
    (hw : ∀ k vals, dict.patterns.get k = some vals → vals.length ≤ k.length + 1)
    (hl : 1 ≤ o.minLeft) (hr : 2 ≤ o.minRight)
    (hh : ∀ r ∈ word, isHyphenRune r = false) (hm : o.minLength ≤ word.length)
    (he : dict.exceptions.get word = none) (hlen : word.length ≤ 29) :
    ∃ cuts, IsCuts (LiangAllows env dict word) o.minLeft o.minRight word.length cuts ∧
      hyphenatorBreakWord env dict o word = .ok (cutAt word 0 cuts) :=
  breakWord_liang env dict o word hw hl hr hh hm he (Or.inl (by omega))

/-- **C12** for longer words, when some pattern occurrence that starts before the last letter gives a
value to the last gap of the word or beyond. -/
theorem C12_liang_long_partial (env : Env) (dict : Dictionary) (o : HOptions) (word : List Rune)
    (hw : ∀ k vals, dict.patterns.get k = some vals → vals.length ≤ k.length + 1)
    (hl : 1 ≤ o.minLeft) (hr : 2 ≤ o.minRight)
    (hh : ∀ r ∈ word, isHyphenRune r = false) (hm : o.minLength ≤ word.length)
    (he : dict.exceptions.get word = none)
    (hlong : ∃ a vals, Occurs (fun s => dict.patterns.get s) (dotted env.toLower word) a vals ∧
      a < word.length ∧ 2 ≤ word.length ∧ word.length + 1 ≤ a + vals.length) :
    ∃ cuts, IsCuts (LiangAllows env dict word) o.minLeft o.minRight word.length cuts ∧
      hyphenatorBreakWord env dict o word = .ok (cutAt word 0 cuts) := by
  obtain ⟨a, vals, h1, h2, h3, h4⟩ := hlong
  refine breakWord_liang env dict o word hw hl hr hh hm he (Or.inr ⟨a, vals, h2, by omega, ?_, ?_, by omega⟩)
  · rw [occurs_iff] at h1
    obtain ⟨n, hn1, hn2, hP⟩ := h1
    rw [dotted_length] at hn2
    refine ⟨h2, n, ?_, hn2, hP⟩
    split
    · rename_i h0
      have := hw _ _ hP
      rw [List.length_take, List.length_drop, dotted_length] at this
      omega
    · exact hn1
  · intro h; subst h; simp at h4; omega

/-- **C12**, what is true of words of any length: the cuts are those of Liang's algorithm, except that
from the 28th gap on, a gap is passed over when no pattern occurrence (starting before the last letter)
gives a value to a later gap. -/
theorem C12_exact_partial (env : Env) (dict : Dictionary) (o : HOptions) (word : List Rune)
    (hw : ∀ k vals, dict.patterns.get k = some vals → vals.length ≤ k.length + 1)
    (hl : 1 ≤ o.minLeft) (hr : 2 ≤ o.minRight)
    (hh : ∀ r ∈ word, isHyphenRune r = false) (hm : o.minLength ≤ word.length)
    (he : dict.exceptions.get word = none) :
    ∃ cuts, IsCuts (fun i => LiangAllows env dict word i ∧
        (i < 28 ∨ ∃ a vals j u, Occurs (fun s => dict.patterns.get s) (dotted env.toLower word) a vals ∧
          a < word.length ∧ vals[j]? = some u ∧ i + 1 < a + j)) o.minLeft o.minRight word.length cuts ∧
      hyphenatorBreakWord env dict o word = .ok (cutAt word 0 cuts) :=
  breakWord_exact env dict o word hw hl hr hh hm he

/-- **C12**, one half for words of any length, with or without hyphens, and any minLength: every place
where BreakWord cuts a word that is not an exception is allowed by Liang's algorithm. -/
theorem C12_sound_partial (env : Env) (dict : Dictionary) (o : HOptions) (word : List Rune)
    (hw : ∀ k vals, dict.patterns.get k = some vals → vals.length ≤ k.length + 1)
    (hl : 1 ≤ o.minLeft) (hr : 2 ≤ o.minRight) (he : dict.exceptions.get word = none) :
    ∃ cuts, hyphenatorBreakWord env dict o word = .ok (cutAt word 0 cuts) ∧
      cuts.Pairwise (· < ·) ∧ ∀ c ∈ cuts, 0 < c ∧ c < word.length ∧ LiangAllows env dict word c := by
  rcases breakWord_cases env dict o word with ⟨_, h⟩ | ⟨hc, _⟩
  · exact ⟨[], by simp [h, cutAt], by simp, by simp⟩
  · obtain ⟨cuts, h1, h2⟩ := C12_exact_partial env dict o word hw hl hr
      (fun r hr => by
        cases h : isHyphenRune r with
        | false => rfl
        | true => exact absurd (Or.inl ((containsHyphen_iff word).mpr ⟨r, hr, h⟩)) hc)
      (Int.not_lt.mp fun h => hc (Or.inr h)) he
    refine ⟨cuts, h2, h1.increasing, fun c hm => ?_⟩
    obtain ⟨⟨h3, _⟩, h4, h5, _⟩ := (h1.mem_iff c).mp hm
    exact ⟨by omega, by omega, h3⟩

/-- The specification determines the cuts: two lists meeting it are equal. -/
theorem C12_cuts_unique (allowed : Nat → Prop) (l r : Int) (n : Nat) (c d : List Nat)
    (hc : IsCuts allowed l r n c) (hd : IsCuts allowed l r n d) : c = d := by
  have key : ∀ i : Nat, (i ∈ c ↔ i ∈ d) := by
    intro i
    induction i using Nat.strongRecOn with
    | _ i ih =>
      rw [hc.mem_iff, hd.mem_iff]
      constructor
      · rintro ⟨h1, h2, h3, h4⟩
        exact ⟨h1, h2, h3, fun x hx hlt => h4 x ((ih x hlt).mpr hx) hlt⟩
      · rintro ⟨h1, h2, h3, h4⟩
        exact ⟨h1, h2, h3, fun x hx hlt => h4 x ((ih x hlt).mp hx) hlt⟩
  have gen : ∀ (c d : List Nat), c.Pairwise (· < ·) → d.Pairwise (· < ·) → (∀ i, i ∈ c ↔ i ∈ d) → c = d := by
    intro c
    induction c with
    | nil =>
      intro d _ _ h
      cases d with
      | nil => rfl
      | cons x d => exact absurd ((h x).mpr (by simp)) (by simp)
    | cons x c ih =>
      intro d hc hd h
      cases d with
      | nil => exact absurd ((h x).mp (by simp)) (by simp)
      | cons y d =>
        rw [List.pairwise_cons] at hc hd
        have hxy : x = y := by
          have hx := (h x).mp (by simp)
          have hy := (h y).mpr (by simp)
          simp only [List.mem_cons] at hx hy
          rcases hx with hx | hx
          · exact hx
          · rcases hy with hy | hy
            · exact hy.symm
            · have := hd.1 x hx; have := hc.1 y hy; omega
        subst hxy
        congr 1
        apply ih d hc.2 hd.2
        intro i
        have := h i
        simp only [List.mem_cons] at this
        constructor
        · intro hi
          have h1 := hc.1 i hi
          rcases this.mp (Or.inr hi) with h2 | h2
          · omega
          · exact h2
        · intro hi
          have h1 := hd.1 i hi
          rcases this.mpr (Or.inr hi) with h2 | h2
          · omega
          · exact h2
  exact gen c d hc.increasing hd.increasing key

example : (dictOf sampleLines).patterns.get (runesOf "ab") = some [0, 1] := by decide
example : (dictOf sampleLines).patterns.get (runesOf "bc") = some [0, 2] := by decide

/-- The word of the counterexample: 27 letters `a`, then `xbb`. -/
def longWord : List Rune := List.replicate 27 0x61 ++ runesOf "xbb"

/-- **C12 fails** for long words: with the single pattern `x1`, "axbb" is broken after the `x`, but the
30-letter word `aa…axbb` is not, although the same pattern occurs at the same distance from its end:
the value written in the last preallocated position is dropped. -/
theorem C12_long_word_fails :
    hyphenatorBreakWord Env.ascii (dictOf [runesOf "x1"]) HOptions.default (runesOf "axbb") =
      .ok [runesOf "ax", runesOf "bb"] ∧
    hyphenatorBreakWord Env.ascii (dictOf [runesOf "x1"]) HOptions.default longWord =
      .ok [longWord] ∧
    LiangAllows Env.ascii (dictOf [runesOf "x1"]) longWord 28 := by
  refine ⟨by decide, by decide, 1, ?_, by decide⟩
  have hget : ∀ s vals, (dictOf [runesOf "x1"]).patterns.get s = some vals → s = runesOf "x" ∧ vals = [0, 1] := by
    intro s vals h
    have hd : (dictOf [runesOf "x1"]).patterns = (Trie.empty.put (runesOf "x") (some [0, 1])).1 := by
      rfl
    rw [hd, Trie.get_put] at h
    split at h
    · rename_i e; exact ⟨e, by simpa using h.symm⟩
    · rw [Trie.get_empty] at h; cases h
  refine ⟨by decide, Or.inr ⟨28, [0, 1], 1, ?_, by decide, by decide⟩, ?_⟩
  · exact ⟨0x2E :: List.replicate 27 0x61, runesOf "x", runesOf "bb.", by decide, by decide, by decide,
      by decide⟩
  · intro a vals j u ho hj hg
    obtain ⟨_, frag, _, _, _, _, hP⟩ := ho
    obtain ⟨_, rfl⟩ := hget _ _ hP
    have : u ∈ [(0 : Int), 1] := List.mem_of_getElem? hj
    simp at this
    omega

/-! ## C13 -/

/-- **C13.** If the exceptions section of a pattern file has a line made of the `parts` of a word
joined with `-`, and no later line for the same word, then after loading that file BreakWord of the
word returns exactly the parts, provided they respect the configured minima. -/
theorem C13_exception_round_trip (env : Env) (id : List Rune) (o : HOptions)
    (pre mid post : List (List Rune)) (marker : List Rune) (parts : List (List Rune))
    (hpre : ∀ l ∈ pre, isMarker l = false) (hmark : isMarker marker = true)
    (hne : parts ≠ [])
    (hparts : ∀ p ∈ parts, p ≠ [] ∧ ∀ r ∈ p, isHyphenRune r = false ∧ env.toLower r = r)
    (hline : isComment (List.intercalate [0x2D] parts) = false)
    (hlast : ∀ l ∈ post, (exceptionEntry env l).1 ≠ parts.flatten)
    (hlen : o.minLength ≤ parts.flatten.length)
    (hr0 : 0 ≤ o.minRight)
    (hl : ∀ p ∈ parts.dropLast, o.minLeft ≤ (p.length : Int))
    (hr : ∀ p, parts.getLast? = some p → o.minRight ≤ (p.length : Int)) :
    ∃ dict, loadPatterns env id (pre ++ marker :: (mid ++ List.intercalate [0x2D] parts :: post))
        = .ok dict ∧
      hyphenatorBreakWord env dict o parts.flatten = .ok parts := by
  obtain ⟨dict, hd, _, hexc⟩ := loadPatterns_spec env id
    (pre ++ marker :: (mid ++ List.intercalate [0x2D] parts :: post))
  refine ⟨dict, hd, ?_⟩
  have hflat : ∀ r ∈ parts.flatten, isHyphenRune r = false ∧ env.toLower r = r := by
    intro r hr
    obtain ⟨p, h1, h2⟩ := List.mem_flatten.mp hr
    exact (hparts p h1).2 r h2
  -- the word of the entry
  have hword : ((List.intercalate [0x2D] parts).filter (fun r => r ≠ 0x2D)).map env.toLower =
      parts.flatten := by
    have h1 : ∀ ps : List (List Rune), (∀ p ∈ ps, ∀ r ∈ p, isHyphenRune r = false) →
        (List.intercalate [0x2D] ps).filter (fun r => decide (r ≠ 0x2D)) = ps.flatten := by
      intro ps
      have keep : ∀ p : List Rune, (∀ r ∈ p, isHyphenRune r = false) →
          p.filter (fun r => decide (r ≠ 0x2D)) = p := by
        intro p hp
        rw [List.filter_eq_self]
        intro r hr
        have := hp r hr
        simp
        intro he; subst he; exact absurd this (by decide)
      induction ps with
      | nil => intro _; rfl
      | cons p ps ih =>
        intro h
        have ih' := ih (fun q hq => h q (by simp [hq]))
        cases ps with
        | nil =>
          have e : List.intercalate [(0x2D : Int)] [p] = p := by simp [List.intercalate]
          rw [e, keep p (h p (by simp))]; simp
        | cons q ps =>
          have e : List.intercalate [(0x2D : Int)] (p :: q :: ps) =
              p ++ ([0x2D] ++ List.intercalate [0x2D] (q :: ps)) := by
            simp [List.intercalate, List.intersperse]
          rw [e, List.filter_append, List.filter_append, ih', keep p (h p (by simp))]
          simp
    rw [h1 parts (fun p hp r hr => ((hparts p hp).2 r hr).1)]
    conv => rhs; rw [← List.map_id parts.flatten]
    apply List.map_congr_left
    intro r hr; exact (hflat r hr).2
  have hent : exceptionEntry env (List.intercalate [0x2D] parts) =
      (parts.flatten, gapMarks isHyphenRune (fun _ => 1) (List.intercalate [0x2D] parts)) := by
    unfold exceptionEntry
    rw [hline, hword]; simp
  have hentries : exceptionEntries env (pre ++ marker :: (mid ++ List.intercalate [0x2D] parts :: post)) =
      mid.map (exceptionEntry env) ++ exceptionEntry env (List.intercalate [0x2D] parts) ::
        post.map (exceptionEntry env) := by
    unfold exceptionEntries
    rw [List.dropWhile_append_of_pos (by intro l hl; simp [hpre l hl])]
    simp [hmark]
  have hget : dict.exceptions.get parts.flatten =
      some (gapMarks isHyphenRune (fun _ => 1) (List.intercalate [0x2D] parts)) := by
    rw [hexc, hentries]
    unfold lastDef
    rw [List.reverse_append, List.reverse_cons, List.append_assoc, List.find?_append]
    have hno : (post.map (exceptionEntry env)).reverse.find? (fun e => e.1 == parts.flatten) = none := by
      rw [List.find?_eq_none]
      intro e he
      simp only [List.mem_reverse, List.mem_map] at he
      obtain ⟨l, hl1, rfl⟩ := he
      simpa using hlast l hl1
    rw [hno, List.find?_append]
    simp [hent]
  rcases breakWord_cases env dict o parts.flatten with ⟨hc, _⟩ | ⟨_, ps, h1, h2⟩
  · exfalso
    rcases hc with hc | hc
    · obtain ⟨r, h1, h2⟩ := (containsHyphen_iff _).mp hc
      rw [(hflat r h1).1] at h2; cases h2
    · omega
  · rw [hget] at h2
    rcases h2 with h2 | ⟨h2, _⟩
    · cases h2
      rw [h1, splitAtPositions_cuts o hr0]
      congr 1
      exact exception_cuts o parts.flatten.length parts 0 0 false parts.flatten hne
        (fun p hp => ⟨(hparts p hp).1, fun r hr => ((hparts p hp).2 r hr).1⟩) hl hr
        (by simp) (Nat.zero_le _) rfl rfl
    · cases h2

example : hyphenatorBreakWord Env.ascii (dictOf sampleLines) ⟨4, 1, 2⟩ (runesOf "foobar") =
    .ok [runesOf "fo", runesOf "o", runesOf "bar"] := by decide

/-- The shipped British English file is read to its end: its last line `some-thing}` closes the
section on the same line as an entry (languages/hyph-en-gb.tex, last line), so that the word entered
is "something}" and "something" is not an exception. -/
theorem C13_closing_brace_fails :
    let dict := dictOf [runesOf "\\patterns{", runesOf "}", runesOf "\\hyphenation{",
      runesOf "through-out", runesOf "some-thing}"]
    hyphenatorBreakWord Env.ascii dict HOptions.default (runesOf "throughout") =
      .ok [runesOf "through", runesOf "out"] ∧
    hyphenatorBreakWord Env.ascii dict HOptions.default (runesOf "something") =
      .ok [runesOf "something"] ∧
    hyphenatorBreakWord Env.ascii dict HOptions.default (runesOf "something}") =
      .ok [runesOf "some", runesOf "thing}"] := by decide

/-! ## C14

The full statement is false: see `C14_exception_case_fails`. -/

theorem isPatternLoop_lower (env : Env) (pats : Trie (List Int)) :
    ∀ (letters frag : List Rune) (res : List (List Int)),
      (∀ r ∈ letters, env.toLower (env.toLower r) = env.toLower r) →
      isPatternLoop env pats (letters.map env.toLower) frag res =
        isPatternLoop env pats letters frag res := by
  intro letters
  induction letters with
  | nil => intro _ _ _; rfl
  | cons c l ih =>
    intro frag res h
    simp only [List.map_cons, isPatternLoop, h c (by simp)]
    split <;> exact ih _ _ (fun r hr => h r (by simp [hr]))

theorem isPattern_lower (env : Env) (pats : Trie (List Int)) (i : Nat) (word : List Rune)
    (h : ∀ r ∈ word, env.toLower (env.toLower r) = env.toLower r) :
    isPattern env pats i (word.map env.toLower) = isPattern env pats i word := by
  unfold isPattern
  simp only [← List.map_drop]
  rw [isPatternLoop_lower env pats _ _ _ (fun r hr => h r (List.mem_of_mem_drop hr))]

theorem patternLoop_lower (env : Env) (pats : Trie (List Int)) (word : List Rune)
    (h : ∀ r ∈ word, env.toLower (env.toLower r) = env.toLower r) :
    ∀ (n i : Nat) (ps : List Int),
      patternLoop env pats (word.map env.toLower) n i ps = patternLoop env pats word n i ps := by
  intro n
  induction n with
  | zero => intro i ps; rfl
  | succ n ih =>
    intro i ps
    simp only [patternLoop, isPattern_lower env pats i word h, ih]

/-- **C14** for words that are not exceptions, neither as they are nor in lower case (missing: the
exception list, which is case sensitive). The word and its lower-case form are cut at the same
positions. The two hypotheses on `toLower` hold for Unicode: lower-casing twice changes nothing, and
lower-casing neither creates nor removes hyphens. -/
theorem C14_case_insensitive_partial (env : Env) (dict : Dictionary) (o : HOptions)
    (hr : 0 ≤ o.minRight) (word : List Rune)
    (hidem : ∀ r ∈ word, env.toLower (env.toLower r) = env.toLower r)
    (hhyph : ∀ r ∈ word, isHyphenRune (env.toLower r) = isHyphenRune r)
    (h1 : dict.exceptions.get word = none)
    (h2 : dict.exceptions.get (word.map env.toLower) = none) :
    ∃ cuts, hyphenatorBreakWord env dict o word = .ok (cutAt word 0 cuts) ∧
      hyphenatorBreakWord env dict o (word.map env.toLower) =
        .ok (cutAt (word.map env.toLower) 0 cuts) := by
  have hcont : containsHyphen (word.map env.toLower) = containsHyphen word := by
    clear h1 h2 hidem
    induction word with
    | nil => rfl
    | cons c l ih =>
      simp only [List.map_cons, containsHyphen, hhyph c (by simp)]
      rw [ih (fun r hr => hhyph r (by simp [hr]))]
  unfold hyphenatorBreakWord
  simp only [hcont, List.length_map, h1, h2, patternLoop_lower env dict.patterns word hidem]
  by_cases hc : containsHyphen word = true ∨ (word.length : Int) < o.minLength
  · exact ⟨[], by simp [hc, cutAt], by simp [hc, cutAt]⟩
  · simp only [hc, if_false]
    obtain ⟨qs, hq1, hq2⟩ := patternLoop_ok env dict.patterns word
    obtain ⟨q, h3, _⟩ := finish_ok word.length qs hq2.len
    rw [hq1]
    simp only [ok_bind]
    cases hs : slice qs 1 ((qs.length : Int) - 1) with
    | error e => rw [hs] at h3; simp at h3
    | ok s =>
      rw [hs] at h3
      simp only [ok_bind] at h3 ⊢
      rw [h3]
      simp only [ok_bind]
      refine ⟨cutsOf o word.length q 0 0, splitAtPositions_cuts o hr word q, ?_⟩
      have := splitAtPositions_cuts o hr (word.map env.toLower) q
      simpa using this

example : hyphenatorBreakWord Env.ascii (dictOf sampleLines) ⟨4, 2, 2⟩ (runesOf "AABBdCC") =
    .ok [runesOf "AA", runesOf "BB", runesOf "dCC"] := by decide

/-- **C14 fails** for exceptions: "foobar" is hyphenated as listed, "Foobar" is not. -/
theorem C14_exception_case_fails :
    hyphenatorBreakWord Env.ascii (dictOf sampleLines) ⟨4, 1, 2⟩ (runesOf "foobar") =
      .ok [runesOf "fo", runesOf "o", runesOf "bar"] ∧
    hyphenatorBreakWord Env.ascii (dictOf sampleLines) ⟨4, 1, 2⟩ (runesOf "Foobar") =
      .ok [runesOf "Foobar"] := by decide

/-! ## C15 -/

/-- Two digits of the pattern are never adjacent. -/
def NoAdjacentDigits (env : Env) (p : List Rune) : Prop :=
  ∀ a c d b, p = a ++ c :: d :: b → ¬ (env.isDigit c = true ∧ env.isDigit d = true)

/-- Number of letters (non-digits). -/
def countLetters (env : Env) (p : List Rune) : Nat := (p.filter (fun c => !env.isDigit c)).length

/-- **C15.** A pattern is read as its letters, in lower case, digits removed. -/
theorem C15_letters (env : Env) (p : List Rune) :
    (readPattern env p).1 = (p.filter (fun c => !env.isDigit c)).map env.toLower := by
  rw [readPattern_spec]; rfl

/-- **C15.** If a digit `d` is written after `k` letters, then the `k`-th value is `d`. -/
theorem C15_digit_value (env : Env) (a b : List Rune) (d : Rune)
    (h : NoAdjacentDigits env (a ++ d :: b)) (hd : env.isDigit d = true) :
    (readPattern env (a ++ d :: b)).2[countLetters env a]? = some (digitVal d) := by
  rw [readPattern_spec]
  exact gapMarks_mark env.isDigit digitVal a b d (noAdj_of env.isDigit _ h) hd

/-- **C15.** If a letter is written after `k` letters and not right after a digit, the `k`-th value
is 0. -/
theorem C15_no_digit_value (env : Env) (a b : List Rune) (c : Rune)
    (h : NoAdjacentDigits env (a ++ c :: b)) (hc : env.isDigit c = false)
    (hl : ∀ d, a.getLast? = some d → env.isDigit d = false) :
    (readPattern env (a ++ c :: b)).2[countLetters env a]? = some 0 := by
  rw [readPattern_spec]
  refine gapMarks_letter env.isDigit digitVal a b c (noAdj_of env.isDigit _ h) hc ?_
  unfold lastMark
  split
  · rfl
  · rename_i d hd; exact hl d hd

/-- **C15.** There is one value per letter, and one more if the pattern ends with a digit. -/
theorem C15_value_count (env : Env) (p : List Rune) (h : NoAdjacentDigits env p) :
    (readPattern env p).2.length = countLetters env p +
      (match p.getLast? with
        | some d => if env.isDigit d then 1 else 0
        | none => 0) := by
  rw [readPattern_spec]
  have := gapMarksFrom_length env.isDigit digitVal false p (noAdj_of env.isDigit _ h)
  simp only [Bool.toNat_false, Nat.add_zero] at this
  show (gapMarksFrom env.isDigit digitVal false p).length = _
  rw [this]
  unfold countLetters lastMark
  cases p.getLast? with
  | none => rfl
  | some d => cases h : env.isDigit d <;> simp [h]

example : readPattern Env.ascii (runesOf "a5ban") = (runesOf "aban", [0, 5, 0, 0]) := by decide
example : readPattern Env.ascii (runesOf ".Ye4") = (runesOf ".ye", [0, 0, 0, 4]) := by decide
example : NoAdjacentDigits Env.ascii (runesOf "a5b") := by
  intro a c d b h
  have hd : ∀ x ∈ runesOf "a5b", Env.ascii.isDigit x = true → x = 0x35 := by decide
  rintro ⟨h1, h2⟩
  have m1 : c ∈ runesOf "a5b" := by rw [h]; simp
  have m2 : d ∈ runesOf "a5b" := by rw [h]; simp
  have e1 := hd c m1 h1
  have e2 := hd d m2 h2
  subst e1; subst e2
  have hc : (runesOf "a5b").count 0x35 = 1 := by decide
  rw [h] at hc
  simp at hc
  omega

/-! ## C16 -/

/-- **C16.** LoadPatterns does not panic; looking up a fragment of letters gives the values of the last
pattern of the file with these letters (nothing if there is none), and looking up a word among the
exceptions gives the last of the lines after the marker that spells this word. -/
theorem C16_loaded_dictionary (env : Env) (id : List Rune) (lines : List (List Rune)) :
    ∃ dict, loadPatterns env id lines = .ok dict ∧
      (∀ k, dict.patterns.get k = lastDef (patternEntries env lines) k) ∧
      (∀ k, dict.exceptions.get k = lastDef (exceptionEntries env lines) k) :=
  loadPatterns_spec env id lines

/-- A loaded dictionary satisfies the hypothesis of C12 when no pattern of the file has two adjacent
digits. -/
theorem C16_loaded_well_formed (env : Env) (id : List Rune) (lines : List (List Rune))
    (h : ∀ l ∈ lines, ∀ p ∈ words l, NoAdjacentDigits env p) :
    ∃ dict, loadPatterns env id lines = .ok dict ∧
      ∀ k vals, dict.patterns.get k = some vals → vals.length ≤ k.length + 1 := by
  obtain ⟨dict, h1, h2, _⟩ := loadPatterns_spec env id lines
  refine ⟨dict, h1, fun k vals hk => ?_⟩
  rw [h2] at hk
  unfold lastDef at hk
  obtain ⟨e, he, hv⟩ := Option.map_eq_some_iff.mp hk
  have hmem := List.mem_of_find?_eq_some he
  have hkey : e.1 = k := by simpa using List.find?_some he
  rw [List.mem_reverse] at hmem
  unfold patternEntries at hmem
  obtain ⟨p, hp, rfl⟩ := List.mem_map.mp hmem
  obtain ⟨l, hl, hpl⟩ := List.mem_flatMap.mp hp
  have hl' : l ∈ lines := (List.takeWhile_sublist _).subset (List.mem_filter.mp hl).1
  have hcount := C15_value_count env p (h l hl' p hpl)
  rw [readPattern_spec] at hcount
  simp only at hv hkey hcount
  subst hv; subst hkey
  have : (patternLetters env p).length = countLetters env p := by
    simp [patternLetters, countLetters]
  rw [this, hcount]
  split
  · split <;> omega
  · omega

example : (dictOf [runesOf "a1b", runesOf "a3b x2"]).patterns.get (runesOf "ab") = some [0, 3] := by
  decide

/-- Specification: what follows `\message{` on the last such line above the exceptions, or the default. -/
def fileIdentifier (dflt : List Rune) (lines : List (List Rune)) : List Rune :=
  match ((lines.takeWhile (fun l => !isMarker l)).filter
      (fun l => (runesOf "\\message{").isPrefixOf l)).getLast? with
  | some l => l.drop 9
  | none => dflt

theorem loadLines_identifier (env : Env) : ∀ (lines : List (List Rune)) (d d' : Dictionary),
    loadLines env lines d = .ok d' → d'.identifier = fileIdentifier d.identifier lines := by
  have hmsg : ∀ l : List Rune, hasPrefix l messageSection = (runesOf "\\message{").isPrefixOf l := by
    intro l
    have : runesOf "\\message{" = messageSection := by decide
    rw [this]; rfl
  have hexc : ∀ (lines : List (List Rune)) (d : Dictionary),
      (loadExceptions env lines d).identifier = d.identifier := by
    intro lines
    induction lines with
    | nil => intro d; rfl
    | cons l lines ih => intro d; simp only [loadExceptions]; rw [ih]
  intro lines
  induction lines with
  | nil => intro d d' h; cases h; rfl
  | cons l lines ih =>
    intro d d' h
    simp only [loadLines] at h
    by_cases hm : hasPrefix l messageSection = true
    · simp only [hm, if_true] at h
      have := ih _ _ h
      rw [this]
      have h1 := (message_not_marker l hm).1
      unfold fileIdentifier
      rw [hmsg] at hm
      simp only [List.takeWhile_cons, h1, Bool.not_false, if_true, List.filter_cons, hm]
      cases hl : (List.filter (fun l => (runesOf "\\message{").isPrefixOf l)
        (List.takeWhile (fun l => !isMarker l) lines)).getLast? with
      | none =>
        rw [List.getLast?_eq_none_iff] at hl
        rw [hl]
        simp [messageSection]
      | some x => rw [List.getLast?_cons, hl]; rfl
    · have hm' : hasPrefix l messageSection = false := by simpa using hm
      simp only [hm', Bool.false_eq_true, if_false] at h
      rw [isMarker_eq] at h
      rw [hmsg] at hm'
      by_cases he : isMarker l = true
      · simp only [he, if_true] at h
        cases h
        rw [hexc]
        simp [fileIdentifier, he]
      · have he' : isMarker l = false := by simpa using he
        have hstep : fileIdentifier d.identifier (l :: lines) = fileIdentifier d.identifier lines := by
          simp [fileIdentifier, he', hm']
        rw [hstep]
        simp only [he', Bool.false_eq_true, if_false] at h
        split at h
        · exact ih _ _ h
        · rw [fieldsFunc_words] at h
          simp only [ok_bind] at h
          have := ih _ _ h
          exact this

/-- **C16.** The dictionary is identified by the last `\message{` line of the file, and by the given
default when there is none. -/
theorem C16_identifier (env : Env) (id : List Rune) (lines : List (List Rune)) (dict : Dictionary)
    (h : loadPatterns env id lines = .ok dict) : dict.identifier = fileIdentifier id lines :=
  loadLines_identifier env lines _ _ h

example : (dictOf [runesOf "% x", runesOf "\\message{Hyphen}", runesOf "a1b"]).identifier = runesOf "Hyphen}" := by
  decide

end Verif.Props
