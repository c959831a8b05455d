import Verif.Proofs.Trie
import Verif.Proofs.Fields
import Verif.Model.Dictionary
import Verif.Spec.Dict

/-! # Lemmas on the loading of dictionaries -/

namespace Verif.Proofs
open Verif.Go Verif.Model Verif.Spec

theorem fieldsRef_splitOnP (f : Rune → Bool) : ∀ (rest cur : List Rune),
    fieldsRef f cur rest = (List.splitOnPPrepend f rest cur.reverse).filter (fun w => decide (w ≠ [])) := by
  intro rest
  induction rest with
  | nil =>
    intro cur
    by_cases h : cur = [] <;> simp [fieldsRef, List.splitOnPPrepend, h]
  | cons r rest ih =>
    intro cur
    by_cases hr : f r = true
    · have := ih []
      simp only [List.reverse_nil] at this
      by_cases h : cur = []
      · simp [fieldsRef, List.splitOnPPrepend, h, hr, this]
      · simp [fieldsRef, List.splitOnPPrepend, h, hr, this]
    · have := ih (cur ++ [r])
      simp [fieldsRef, List.splitOnPPrepend, hr, this]

theorem fieldsFunc_words (line : List Rune) : fieldsFunc line isSpace = .ok (words line) := by
  rw [fieldsFunc_ref, fieldsRef_splitOnP]
  rfl

/-! ## readPattern, readException -/

/-- `gapMarks` with the information that a mark precedes. -/
def gapMarksFrom (isMark : Rune → Bool) (val : Rune → Int) (b : Bool) (s : List Rune) : List Int :=
  ((b :: s.map isMark).zip s).filterMap fun (afterMark, c) =>
    if isMark c then some (val c) else if afterMark then none else some 0

theorem gapMarksFrom_cons (isMark : Rune → Bool) (val : Rune → Int) (b : Bool) (c : Rune)
    (s : List Rune) :
    gapMarksFrom isMark val b (c :: s) =
      (if isMark c then [val c] else if b then [] else [0]) ++ gapMarksFrom isMark val (isMark c) s := by
  unfold gapMarksFrom
  by_cases h : isMark c = true
  · simp [h]
  · cases b <;> simp [h]

theorem atoiRune_eq (r : Rune) : atoiRune r = digitVal r := by
  unfold atoiRune digitVal
  repeat' split
  all_goals omega

theorem readPatternLoop_spec (env : Env) : ∀ (s : List Rune) (b : Bool) (pat : List Rune) (pos : List Int),
    readPatternLoop env s b pat pos =
      (pat ++ patternLetters env s, pos ++ gapMarksFrom env.isDigit digitVal b s) := by
  intro s
  induction s with
  | nil => intro b pat pos; simp [readPatternLoop, patternLetters, gapMarksFrom]
  | cons c s ih =>
    intro b pat pos
    rw [gapMarksFrom_cons]
    simp only [readPatternLoop, patternLetters]
    by_cases h : env.isDigit c = true
    · simp [h, ih, patternLetters, atoiRune_eq]
    · cases b <;> simp [h, ih, patternLetters]

theorem readPattern_spec (env : Env) (s : List Rune) :
    readPattern env s = (patternLetters env s, patternValues env s) := by
  unfold readPattern
  rw [readPatternLoop_spec]
  rfl

theorem readExceptionLoop_spec : ∀ (s : List Rune) (b : Bool) (pos : List Int),
    readExceptionLoop s b pos = pos ++ gapMarksFrom isHyphenRune (fun _ => 1) b s := by
  intro s
  induction s with
  | nil => intro b pos; simp [readExceptionLoop, gapMarksFrom]
  | cons c s ih =>
    intro b pos
    rw [gapMarksFrom_cons]
    simp only [readExceptionLoop]
    by_cases h : isHyphenRune c = true
    · simp [h, ih]
    · cases b <;> simp [h, ih]

theorem isTeXComment_eq (line : List Rune) : isTeXComment line = isComment line := by
  cases line with
  | nil => rfl
  | cons c l =>
    simp [isTeXComment, isComment, hasPrefix, List.isPrefixOf, Bool.beq_comm, Bool.or_assoc]

theorem readException_spec (env : Env) (line : List Rune) :
    readException env line = exceptionEntry env line := by
  unfold readException exceptionEntry
  rw [isTeXComment_eq]
  split
  · rfl
  · rw [readExceptionLoop_spec]; rfl

/-! ## LoadPatterns -/

def putAll : List (List Rune × List Int) → Trie (List Int) → Trie (List Int)
  | [], t => t
  | e :: es, t => putAll es (t.put e.1 (some e.2)).1

theorem putAll_append (a b : List (List Rune × List Int)) (t) :
    putAll (a ++ b) t = putAll b (putAll a t) := by
  induction a generalizing t with
  | nil => rfl
  | cons e a ih => simp [putAll, ih]

theorem putAll_get (es : List (List Rune × List Int)) (t : Trie (List Int)) (k : List Rune) :
    (putAll es t).get k = (lastDef es k).or (t.get k) := by
  induction es generalizing t with
  | nil => simp [putAll, lastDef]
  | cons e es ih =>
    simp only [putAll, ih, Trie.get_put]
    unfold lastDef
    rw [List.reverse_cons, List.find?_append]
    cases hf : es.reverse.find? (fun e => e.1 == k) with
    | some x => simp
    | none =>
      by_cases hk : k = e.1
      · subst hk; simp
      · simp [hk, Ne.symm hk]

theorem putPatterns_spec (env : Env) (ps : List (List Rune)) (t : Trie (List Int)) :
    putPatterns env ps t = putAll (ps.map fun p => (patternLetters env p, patternValues env p)) t := by
  induction ps generalizing t with
  | nil => rfl
  | cons p ps ih => simp [putPatterns, readPattern_spec, putAll, ih]

theorem loadExceptions_spec (env : Env) (lines : List (List Rune)) (d : Dictionary) :
    loadExceptions env lines d =
      { d with exceptions := putAll (lines.map (exceptionEntry env)) d.exceptions } := by
  induction lines generalizing d with
  | nil => rfl
  | cons l lines ih => simp [loadExceptions, readException_spec, putAll, ih]

theorem isMarker_eq (line : List Rune) : hasPrefix line exceptionsSection = isMarker line := by
  have : exceptionsSection = runesOf "\\hyphenation{" := by decide
  unfold hasPrefix isMarker
  rw [this]

theorem isMarker_comment (line : List Rune) (h : isMarker line = true) : isComment line = true := by
  rw [← isMarker_eq] at h
  cases line with
  | nil => rfl
  | cons c l =>
    simp [hasPrefix, exceptionsSection, List.isPrefixOf] at h
    simp [isComment, ← h.1]

theorem message_not_marker (line : List Rune) (h : hasPrefix line messageSection = true) :
    isMarker line = false ∧ isComment line = true := by
  rw [← isMarker_eq]
  cases line with
  | nil => simp [hasPrefix, messageSection] at h
  | cons c l =>
    cases l with
    | nil => simp [hasPrefix, messageSection] at h
    | cons d l =>
      simp [hasPrefix, messageSection] at h
      simp [hasPrefix, exceptionsSection, List.isPrefixOf, isComment, ← h.1, ← h.2.1]

theorem loadLines_spec (env : Env) : ∀ (lines : List (List Rune)) (d : Dictionary),
    ∃ id, loadLines env lines d = .ok
      { exceptions := putAll (exceptionEntries env lines) d.exceptions
        patterns := putAll (patternEntries env lines) d.patterns
        identifier := id } := by
  intro lines
  induction lines with
  | nil => intro d; exact ⟨d.identifier, rfl⟩
  | cons l lines ih =>
    intro d
    simp only [loadLines]
    split
    · rename_i hm
      obtain ⟨h1, h2⟩ := message_not_marker l hm
      obtain ⟨id, hid⟩ := ih { d with identifier := l.drop messageSection.length }
      refine ⟨id, ?_⟩
      rw [hid]
      simp [exceptionEntries, patternEntries, h1, h2]
    · rw [isMarker_eq]
      split
      · rename_i hm
        refine ⟨d.identifier, ?_⟩
        rw [loadExceptions_spec]
        simp [exceptionEntries, patternEntries, hm, putAll]
      · rename_i hm
        have hm' : isMarker l = false := by simpa using hm
        rw [isTeXComment_eq]
        split
        · rename_i hc
          obtain ⟨id, hid⟩ := ih d
          refine ⟨id, ?_⟩
          rw [hid]
          simp [exceptionEntries, patternEntries, hm', hc]
        · rename_i hc
          have hc' : isComment l = false := by simpa using hc
          rw [fieldsFunc_words]
          simp only [ok_bind]
          obtain ⟨id, hid⟩ := ih { d with patterns := putPatterns env (words l) d.patterns }
          refine ⟨id, ?_⟩
          rw [hid]
          simp [exceptionEntries, patternEntries, hm', hc', putPatterns_spec, putAll_append]

theorem loadPatterns_spec (env : Env) (id : List Rune) (lines : List (List Rune)) :
    ∃ d, loadPatterns env id lines = .ok d ∧
      (∀ k, d.patterns.get k = lastDef (patternEntries env lines) k) ∧
      (∀ k, d.exceptions.get k = lastDef (exceptionEntries env lines) k) := by
  obtain ⟨i, h⟩ := loadLines_spec env lines ⟨Trie.empty, Trie.empty, id⟩
  refine ⟨_, h, ?_, ?_⟩
  · intro k; simp [putAll_get, Trie.get_empty]
  · intro k; simp [putAll_get, Trie.get_empty]

end Verif.Proofs
