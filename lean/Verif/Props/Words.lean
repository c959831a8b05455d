import Verif.Proofs.FieldsRanges
import Verif.Proofs.Punctuator
import Verif.Proofs.Hyphenator

/-! # Properties C01–C08: splitting texts into words and words into parts -/

namespace Verif.Props
open Verif.Go Verif.Model Verif.Spec Verif.Proofs

/-! ## C01 -/

/-- **C01.** For any slice and any separator predicate, FieldsFunc does not panic and the concatenation
of its parts is the input without the separators. -/
theorem C01_fields_content (inp : List Rune) (sep : Rune → Bool) :
    ∃ parts, fieldsFunc inp sep = .ok parts ∧ parts.flatten = inp.filter (fun r => !sep r) :=
  ⟨_, fieldsFunc_ref inp sep, by simpa using fieldsRef_flatten sep inp [] (by simp)⟩

/-- **C01**, tokenizer. -/
theorem C01_tokenizer_content (word : List Rune) :
    ∃ parts, tokenizerBreakWord word = .ok parts ∧
      parts.flatten = word.filter (fun r => !isSpace r) :=
  C01_fields_content word isSpace

example : fieldsFunc (runesOf " ab,, c,") (fun r => r == 0x2C || r == 0x20)
    = .ok [runesOf "ab", runesOf "c"] := by decide
example : tokenizerBreakWord (runesOf " ab\n  c ") = .ok [runesOf "ab", runesOf "c"] := by decide

/-! ## C02 -/

/-- **C02.** The parts of FieldsFunc are index ranges of the input, in increasing order, and these are
exactly the maximal separator-free ranges. -/
theorem C02_fields_maximal_runs (inp : List Rune) (sep : Rune → Bool) :
    ∃ ranges : List (Nat × Nat),
      fieldsFunc inp sep = .ok (ranges.map (range inp)) ∧
      ranges.Pairwise (fun a b => a.2 < b.1) ∧
      ∀ i j, (i, j) ∈ ranges ↔ IsMaxRun sep inp i j := by
  refine ⟨fieldsRanges sep 0 0 inp, ?_, fieldsRanges_sorted sep inp 0 0 (Nat.le_refl _), ?_⟩
  · rw [fieldsFunc_ref, fieldsRef_ranges sep inp inp [] [] (by simp)]
    simp
  · intro i j
    have := fieldsRanges_mem sep inp inp [] [] (by simp) (by simp) (Or.inl rfl) i j
    simpa using this

/-- A range meeting the specification. -/
example : IsMaxRun isSpace (runesOf " ab c") 1 3 :=
  ⟨by decide, by decide, by
    intro k h1 h2
    have : k = 1 ∨ k = 2 := by omega
    rcases this with rfl | rfl
    · exact ⟨0x61, by decide⟩
    · exact ⟨0x62, by decide⟩, Or.inr ⟨0x20, by decide⟩, Or.inr ⟨0x20, by decide⟩⟩

/-! ## C03 -/

/-- **C03.** Non-empty, separator-free words joined by a separator tokenize to the same words. -/
theorem C03_fields_join (sep : Rune → Bool) (s : Rune) (hs : sep s = true) (words : List (List Rune))
    (hw : ∀ w ∈ words, w ≠ [] ∧ ∀ r ∈ w, sep r = false) :
    fieldsFunc (List.intercalate [s] words) sep = .ok words := by
  rw [fieldsFunc_ref, fieldsRef_join sep s hs words hw]

/-- **C03.** Joining the parts of any text with any separator and splitting again gives the same
parts. -/
theorem C03_fields_stable (inp : List Rune) (sep : Rune → Bool) (s : Rune) (hs : sep s = true) :
    ∃ parts, fieldsFunc inp sep = .ok parts ∧
      fieldsFunc (List.intercalate [s] parts) sep = .ok parts := by
  refine ⟨_, fieldsFunc_ref inp sep, ?_⟩
  exact C03_fields_join sep s hs _ (fieldsRef_parts sep inp [] (by simp))

example : fieldsFunc (List.intercalate [0x20] [runesOf "ab", runesOf "c", runesOf "d"]) isSpace
    = .ok [runesOf "ab", runesOf "c", runesOf "d"] :=
  C03_fields_join isSpace 0x20 (by decide) _ (by decide)

/-! ## C04, C05, C06 -/

/-- **C04.** Punctuator.BreakWord does not panic and its parts concatenate to the word. -/
theorem C04_punctuator_partition (env : Env) (word : List Rune) :
    ∃ parts, punctuatorBreakWord env word = .ok parts ∧ parts.flatten = word :=
  ⟨_, breakAtFunc_ref word _, by simpa using breakAtRef_flatten (punctSplitFunc env) word []⟩

/-- The separators of the punctuator: the pipe, and punctuation marks that are not hyphens. -/
def IsMark (env : Env) (r : Rune) : Prop :=
  r = 0x7C ∨ (env.isPunct r = true ∧ isHyphenRune r = false)

theorem punctSplitFunc_iff (env : Env) (r : Rune) : punctSplitFunc env r = true ↔ IsMark env r := by
  simp [punctSplitFunc, IsMark]

/-- **C05.** For any predicate telling the marks apart, the parts form a split of the word (isolated
marks, maximal runs without marks), and it is the only split of that word. -/
theorem C05_punctuator_unique_split (env : Env) (sep : Rune → Bool)
    (hsep : ∀ r, sep r = true ↔ IsMark env r) (word : List Rune) :
    ∃ parts, punctuatorBreakWord env word = .ok parts ∧ IsSplit sep parts ∧
      ∀ other, IsSplit sep other → other.flatten = word → other = parts := by
  have : sep = punctSplitFunc env := by
    funext r
    have := (hsep r).trans (punctSplitFunc_iff env r).symm
    cases h1 : sep r <;> cases h2 : punctSplitFunc env r <;> simp_all
  subst this
  refine ⟨_, breakAtFunc_ref word _, ⟨breakAtRef_kind _ word [] (by simp),
    breakAtRef_maximal _ word [] (by simp)⟩, ?_⟩
  intro other h1 h2
  rw [← h2, isSplit_unique _ other h1]

/-- **C06.** A part is recognised by IsPunctuation iff it is an isolated mark. -/
theorem C06_isPunctuation_iff (env : Env) (p : List Rune) :
    isPunctuation env p = true ↔ ∃ r, p = [r] ∧ IsMark env r := by
  unfold isPunctuation
  match p with
  | [] => simp
  | [r] => simp [punctSplitFunc_iff]
  | _ :: _ :: _ => simp

/-- **C06.** Every part returned by BreakWord that is not recognised by IsPunctuation is free of
marks. -/
theorem C06_other_parts_free (env : Env) (word : List Rune) :
    ∃ parts, punctuatorBreakWord env word = .ok parts ∧
      ∀ p ∈ parts, isPunctuation env p = false → p ≠ [] ∧ ∀ r ∈ p, ¬ IsMark env r := by
  refine ⟨_, breakAtFunc_ref word _, fun p hp hf => ?_⟩
  rcases breakAtRef_kind _ word [] (by simp) p hp with ⟨r, rfl, hr⟩ | ⟨h1, h2⟩
  · have := (C06_isPunctuation_iff env [r]).mpr ⟨r, rfl, (punctSplitFunc_iff env r).mp hr⟩
    rw [this] at hf; cases hf
  · refine ⟨h1, fun r hr hm => ?_⟩
    have := h2 r hr
    rw [(punctSplitFunc_iff env r).mpr hm] at this
    cases this

/-- **C06.** The pipe is a separator and no hyphen rune is. -/
theorem C06_pipe_and_hyphens (env : Env) :
    isPunctuation env [0x7C] = true ∧
      ∀ r, isHyphenRune r = true → isPunctuation env [r] = false := by
  refine ⟨by simp [isPunctuation, punctSplitFunc], fun r hr => ?_⟩
  have : r ≠ 0x7C := by
    intro h; subst h; exact absurd hr (by decide)
  simp [isPunctuation, punctSplitFunc, hr, this]

example : punctuatorBreakWord Env.ascii (runesOf "a-b;c|;") =
    .ok [runesOf "a-b", runesOf ";", runesOf "c", runesOf "|", runesOf ";"] := by decide
example : ∃ sep : Rune → Bool, ∀ r, sep r = true ↔ IsMark Env.ascii r :=
  ⟨punctSplitFunc Env.ascii, punctSplitFunc_iff Env.ascii⟩

/-! ## C07 -/

/-- **C07.** SplitWord does not panic, partitions the word, isolates hyphens, is the only split of
this kind, and IsHyphen recognises exactly the isolated hyphens. -/
theorem C07_splitWord (word : List Rune) :
    ∃ parts, splitWord word = .ok parts ∧ parts.flatten = word ∧ IsSplit isHyphenRune parts ∧
      (∀ other, IsSplit isHyphenRune other → other.flatten = word → other = parts) ∧
      ∀ p ∈ parts, isHyphen p = true ↔ ∃ r, p = [r] ∧ isHyphenRune r = true := by
  refine ⟨_, breakAtFunc_ref word _, by simpa using breakAtRef_flatten isHyphenRune word [],
    ⟨breakAtRef_kind _ word [] (by simp), breakAtRef_maximal _ word [] (by simp)⟩, ?_, ?_⟩
  · intro other h1 h2
    rw [← h2, isSplit_unique _ other h1]
  · intro p _
    unfold isHyphen
    match p with
    | [] => simp
    | [r] => simp
    | _ :: _ :: _ => simp

example : splitWord (runesOf "often--times-") =
    .ok [runesOf "often", runesOf "-", runesOf "-", runesOf "times", runesOf "-"] := by decide

/-! ## C08 -/

/-- All runes of the parts obtained by splitting a text on marks, each part on hyphens, and each of
those at hyphenation points, put end to end. -/
def pipeline (env : Env) (dict : Dictionary) (o : HOptions) (text : List Rune) :
    Res (List Rune) := do
  let marks ← punctuatorBreakWord env text
  let hyphens ← marks.mapM splitWord
  let parts ← hyphens.flatten.mapM (hyphenatorBreakWord env dict o)
  return parts.flatten.flatten

theorem mapM_flatten (f : List Rune → Res (List (List Rune)))
    (hf : ∀ w, ∃ ps, f w = .ok ps ∧ ps.flatten = w) (l : List (List Rune)) :
    ∃ r, l.mapM f = .ok r ∧ r.flatten.flatten = l.flatten := by
  induction l with
  | nil => exact ⟨[], rfl, rfl⟩
  | cons w l ih =>
    obtain ⟨ps, h1, h2⟩ := hf w
    obtain ⟨r, h3, h4⟩ := ih
    refine ⟨ps :: r, ?_, by simp [h2, h4]⟩
    rw [List.mapM_cons, h1, h3]
    rfl

/-- **C09.** BreakWord does not panic and returns at least one part; the parts concatenate to the
word. For every dictionary, whatever it contains. (Stated here because C08 depends on it.) -/
theorem C09_hyphenator_partition (env : Env) (dict : Dictionary) (o : HOptions)
    (hr : 0 ≤ o.minRight) (word : List Rune) :
    ∃ parts, hyphenatorBreakWord env dict o word = .ok parts ∧ parts ≠ [] ∧
      parts.flatten = word := by
  obtain ⟨cs, h1, h2, h3, _⟩ := breakWord_cutAt env dict o hr word
  refine ⟨_, h1, cutAt_ne_nil word 0 cs, ?_⟩
  rw [cutAt_flatten word cs 0 h2 (fun c hc => ⟨Nat.zero_le _, by have := (h3 c hc).1; omega⟩)]
  simp

/-- **C08.** The three splitters composed lose nothing. -/
theorem C08_pipeline_lossless (env : Env) (dict : Dictionary) (o : HOptions)
    (hr : 0 ≤ o.minRight) (text : List Rune) : pipeline env dict o text = .ok text := by
  obtain ⟨ps, h1, h2⟩ := C04_punctuator_partition env text
  obtain ⟨qs, h3, h4⟩ := mapM_flatten splitWord
    (fun w => by obtain ⟨p, a, b, _⟩ := C07_splitWord w; exact ⟨p, a, b⟩) ps
  obtain ⟨hs, h5, h6⟩ := mapM_flatten (hyphenatorBreakWord env dict o)
    (fun w => by obtain ⟨p, a, _, b⟩ := C09_hyphenator_partition env dict o hr w; exact ⟨p, a, b⟩)
    qs.flatten
  unfold pipeline
  simp [h1, h3, h5, h6, h4, h2]

/-- **C08.** No part is both a punctuation mark and a hyphen. -/
theorem C08_marks_not_hyphens (env : Env) (p : List Rune) :
    ¬ (isPunctuation env p = true ∧ isHyphen p = true) := by
  rintro ⟨h1, h2⟩
  obtain ⟨r, rfl, _⟩ := (C06_isPunctuation_iff env p).mp h1
  have hr : isHyphenRune r = true := by simpa [isHyphen] using h2
  have := (C06_pipe_and_hyphens env).2 r hr
  rw [this] at h1; cases h1

example : pipeline Env.ascii ⟨.empty, .empty, []⟩ HOptions.default (runesOf "a-b;c") =
    .ok (runesOf "a-b;c") := by decide

end Verif.Props
