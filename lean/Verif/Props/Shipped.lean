import Verif.Props.Hyphenation
import Verif.Model.Embedded
import Verif.Proofs.Scanner
import Verif.Proofs.CheckUS
import Verif.Proofs.CheckGB
import Verif.Proofs.CheckES
import Verif.Proofs.CheckFR
import Verif.Proofs.CheckDE

/-! # Properties C82–C86: pattern files, and the five files that come with the package -/

namespace Verif.Props
open Verif.Go Verif.Model Verif.Spec Verif.Proofs

/-! ## C82 -/

/-- **C82**, for files whose lines have no more than 65535 bytes, carriage returns included (missing: longer lines,
see `C82_long_line_fails`). Whatever the ends of the lines (LF, CRLF, nothing at the end of the file), the loaded
dictionary has the patterns and the exceptions of the lines. -/
theorem C82_file_lines_partial (env : Env) (id : List Rune) (data : List Nat) (ls : List (List Nat))
    (hf : FileOf data ls) (hlen : FitsBuffer data) :
    ∃ dict, loadFile env id data = .ok dict ∧
      (∀ k, dict.patterns.get k = lastDef (patternEntries env (ls.map stringRunes)) k) ∧
      (∀ k, dict.exceptions.get k = lastDef (exceptionEntries env (ls.map stringRunes)) k) := by
  rw [loadFile_fits env id data ls hf hlen]
  exact loadPatterns_spec env id _

/-- **C82**, corollary: two files with the same lines give the same dictionary, identifier included. -/
theorem C82_line_ends_partial (env : Env) (id : List Rune) (d1 d2 : List Nat) (ls : List (List Nat))
    (h1 : FileOf d1 ls) (h2 : FileOf d2 ls) (f1 : FitsBuffer d1) (f2 : FitsBuffer d2) :
    loadFile env id d1 = loadFile env id d2 := by
  rw [loadFile_fits env id d1 ls h1 f1, loadFile_fits env id d2 ls h2 f2]

/-- A line of 65535 bytes and a line feed fit; with a carriage return, they do not. -/
example : FitsBuffer (List.replicate 65535 0x78 ++ [0x0A]) ∧ ¬ FitsBuffer (List.replicate 65535 0x78 ++ [0x0D, 0x0A]) := by
  constructor
  · intro pre line post e hl
    rcases stretch_cons e hl with h | ⟨pre', h⟩
    · rw [List.length_replicate] at h; exact h
    · have := congrArg List.length h
      simp only [List.length_nil, List.length_append] at this
      omega
  · intro h
    have := h [] (List.replicate 65535 0x78 ++ [0x0D]) [0x0A] (by rw [List.nil_append, List.append_assoc]; rfl) (by
      intro hm
      rcases List.mem_append.mp hm with hm | hm
      · have := List.eq_of_mem_replicate hm
        omega
      · exact absurd (List.mem_singleton.mp hm) (by decide))
    rw [List.length_append, List.length_replicate, List.length_singleton] at this
    omega

/-- "a1b", "c1d", the first line ended by CRLF and the second one by the end of the file. -/
example : FileOf [0x61, 0x31, 0x62, 0x0D, 0x0A, 0x63, 0x31, 0x64] [[0x61, 0x31, 0x62], [0x63, 0x31, 0x64]] :=
  FileOf.crlf [0x61, 0x31, 0x62] (by decide) (FileOf.open_ _ (by decide) (by decide) (by decide))

theorem marker_any (ls : List (List Nat)) :
    ls.any (fun l => !hasPrefix (stringRunes l) messageSection && hasPrefix (stringRunes l) exceptionsSection) =
      ls.any (fun l => isMarker (stringRunes l)) := by
  refine congrArg (fun f => List.any ls f) ?_
  funext l
  cases h : hasPrefix (stringRunes l) messageSection with
  | false => rfl
  | true =>
    rw [(message_not_marker _ h).1]
    rfl

/-- The whole lines before a line that is too long. -/
theorem loadFile_long (env : Env) (id : List Rune) (good : List Nat) (ls : List (List Nat)) (rest : List Nat)
    (hf : FileOf good ls) (hend : good = [] ∨ good.getLast? = some 0x0A) (hfit : FitsBuffer good)
    (hlong : 65536 ≤ (rest.takeWhile (· ≠ 0x0A)).length) :
    loadFile env id (good ++ rest) =
      if ls.any (fun l => isMarker (stringRunes l)) then
        loadPatterns env id (ls.map stringRunes) >>= loadLines env [stringRunes (chomp (rest.take 65536))]
      else loadPatterns env id (ls.map stringRunes) := by
  have h9 := List.Sublist.length_le (List.takeWhile_sublist (l := rest) (p := fun x => decide (x ≠ 0x0A)))
  unfold loadFile loadPatterns
  rw [scanPatterns_long env rest hlong _ good ls _ _ hf hend hfit (newScanner_inv _) rfl
    (by simp [Scanner.content, newScanner]) (by rw [List.length_append]; omega), marker_any]
  rfl

/-- **C82 fails** for every file with a line of 65536 bytes or more among the patterns: the patterns from this line to
the end of the file are dropped, and the exceptions with them, and no error is reported. -/
theorem C82_long_line_fails (env : Env) (id : List Rune) (good : List Nat) (ls : List (List Nat)) (rest : List Nat)
    (hf : FileOf good ls) (hend : good = [] ∨ good.getLast? = some 0x0A) (hfit : FitsBuffer good)
    (hm : ∀ l ∈ ls, isMarker (stringRunes l) = false)
    (hlong : 65536 ≤ (rest.takeWhile (· ≠ 0x0A)).length) :
    loadFile env id (good ++ rest) = loadFile env id good ∧
    ∃ dict, loadFile env id (good ++ rest) = .ok dict ∧
      (∀ k, dict.patterns.get k = lastDef (patternEntries env (ls.map stringRunes)) k) ∧
      (∀ k, dict.exceptions.get k = none) := by
  have h1 : loadFile env id (good ++ rest) = loadPatterns env id (ls.map stringRunes) := by
    rw [loadFile_long env id good ls rest hf hend hfit hlong, if_neg]
    simp only [List.any_eq_true, not_exists, not_and, Bool.not_eq_true]
    exact hm
  refine ⟨by rw [h1, loadFile_fits env id good ls hf hfit], ?_⟩
  rw [h1]
  obtain ⟨dict, h3, h4, h5⟩ := loadPatterns_spec env id (ls.map stringRunes)
  refine ⟨dict, h3, h4, fun k => ?_⟩
  rw [h5]
  suffices h : exceptionEntries env (ls.map stringRunes) = [] by rw [h]; rfl
  clear h1 hf h3 h4 h5
  induction ls with
  | nil => rfl
  | cons l ls ih =>
    have := ih fun x hx => hm x (by simp [hx])
    unfold exceptionEntries at this ⊢
    simp only [List.map_cons, List.dropWhile_cons, hm l (by simp), Bool.not_false, if_true]
    exact this

/-- **C82 fails** for every file with a line of 65536 bytes or more among the exceptions: this line is not an exception,
its first 65536 bytes are read as patterns, the rest of the file is dropped, and no error is reported. -/
theorem C82_long_exception_fails (env : Env) (id : List Rune) (good : List Nat) (ls : List (List Nat)) (rest : List Nat)
    (hf : FileOf good ls) (hend : good = [] ∨ good.getLast? = some 0x0A) (hfit : FitsBuffer good)
    (hm : ∃ l ∈ ls, isMarker (stringRunes l) = true)
    (hlong : 65536 ≤ (rest.takeWhile (· ≠ 0x0A)).length) :
    ∃ dict, loadFile env id (good ++ rest) = .ok dict ∧
      (∀ k, dict.patterns.get k = lastDef (patternEntries env (ls.map stringRunes) ++
        patternEntries env [stringRunes (chomp (rest.take 65536))]) k) ∧
      (∀ k, dict.exceptions.get k = lastDef (exceptionEntries env (ls.map stringRunes)) k) := by
  rw [loadFile_long env id good ls rest hf hend hfit hlong, if_pos (by simpa [List.any_eq_true] using hm)]
  unfold loadPatterns
  obtain ⟨i, h⟩ := loadLines_spec env (ls.map stringRunes) ⟨Trie.empty, Trie.empty, id⟩
  rw [h]
  simp only [ok_bind]
  obtain ⟨j, h2⟩ := loadLines_spec env [stringRunes (chomp (rest.take 65536))] ⟨_, _, i⟩
  rw [h2]
  refine ⟨_, rfl, ?_, ?_⟩
  · intro k; simp [← putAll_append, putAll_get, Trie.get_empty]
  · intro k
    have h : exceptionEntries env [stringRunes (chomp (rest.take 65536))] = [] := by
      unfold exceptionEntries
      simp only [List.dropWhile_cons, List.dropWhile_nil]
      split <;> rfl
    simp [h, putAll_get, Trie.get_empty, lastDef]

/-- A file "a1b", then 65536 bytes `x`, then "c1d". -/
example : 65536 ≤ ((List.replicate 65536 0x78 ++ [0x0A, 0x63, 0x31, 0x64]).takeWhile (· ≠ 0x0A)).length := by
  rw [List.takeWhile_append_of_pos (by intro a ha; rw [List.eq_of_mem_replicate ha]; decide)]
  rw [List.length_append, List.length_replicate]
  omega

theorem fits_cons {l d : List Nat} (h : l.length ≤ 65535) (hd : FitsBuffer d) : FitsBuffer (l ++ 0x0A :: d) := by
  intro pre line post e hl
  rcases stretch_cons e hl with h' | ⟨pre', h'⟩
  · omega
  · exact hd pre' line post h' hl

theorem fileOf_cons {l d : List Nat} {ls : List (List Nat)} (h : 0x0A ∉ l) (hd : FileOf d ls) :
    ∃ ls', FileOf (l ++ 0x0A :: d) ls' := by
  rcases List.eq_nil_or_concat l with rfl | ⟨l', x, rfl⟩
  · exact ⟨_, FileOf.lf [] h (by simp) hd⟩
  · rw [List.concat_eq_append] at h ⊢
    by_cases hx : x = 0x0D
    · subst hx
      refine ⟨l' :: ls, ?_⟩
      rw [List.append_assoc]
      exact FileOf.crlf l' (fun hm => h (by simp [hm])) hd
    · exact ⟨_, FileOf.lf _ h (by simpa using hx) hd⟩

theorem fileOf_open {l : List Nat} (h : 0x0A ∉ l) : ∃ ls, FileOf l ls := by
  rcases List.eq_nil_or_concat l with rfl | ⟨l', x, rfl⟩
  · exact ⟨_, .nil⟩
  · rw [List.concat_eq_append] at h ⊢
    by_cases hx : x = 0x0D
    · subst hx
      exact ⟨_, FileOf.openCR l' (fun hm => h (by simp [hm]))⟩
    · exact ⟨_, FileOf.open_ _ h (by simp) (by simpa using hx)⟩

/-- The theorems of C82 cover every file: its lines fit in the buffer, or there is a first line that does not. -/
theorem every_file (data : List Nat) :
    (∃ ls, FileOf data ls ∧ FitsBuffer data) ∨
    ∃ good ls rest, data = good ++ rest ∧ FileOf good ls ∧ (good = [] ∨ good.getLast? = some 0x0A) ∧ FitsBuffer good ∧
      65536 ≤ (rest.takeWhile (· ≠ 0x0A)).length := by
  obtain ⟨n, hn⟩ : ∃ n, data.length ≤ n := ⟨_, Nat.le_refl _⟩
  induction n generalizing data with
  | zero =>
    have : data = [] := List.length_eq_zero_iff.mp (by omega)
    subst this
    exact Or.inl ⟨[], .nil, fits_nil⟩
  | succ n ih =>
    by_cases hlong : 65536 ≤ (data.takeWhile (· ≠ 0x0A)).length
    · exact Or.inr ⟨[], [], data, rfl, .nil, Or.inl rfl, fits_nil, hlong⟩
    · have hsp := List.takeWhile_append_dropWhile (p := fun x => decide (x ≠ 0x0A)) (l := data)
      have hraw : 0x0A ∉ data.takeWhile (fun x => decide (x ≠ 0x0A)) := by
        intro hm
        have := List.all_takeWhile (p := fun x => decide (x ≠ 0x0A)) (l := data)
        rw [List.all_eq_true] at this
        have := this _ hm
        simp at this
      generalize data.takeWhile (fun x => decide (x ≠ 0x0A)) = raw at hlong hsp hraw
      cases hdw : data.dropWhile (fun x => decide (x ≠ 0x0A)) with
      | nil =>
        rw [hdw, List.append_nil] at hsp
        subst hsp
        obtain ⟨ls, hls⟩ := fileOf_open hraw
        refine Or.inl ⟨ls, hls, ?_⟩
        intro pre line post e _
        have := congrArg List.length e
        simp only [List.length_append] at this
        omega
      | cons x d =>
        have hx : x = 0x0A := by
          have := List.head?_dropWhile_not (fun x => decide (x ≠ 0x0A)) data
          rw [hdw] at this
          simpa using this
        subst hx
        rw [hdw] at hsp
        subst hsp
        simp only [List.length_append, List.length_cons] at hn
        rcases ih d (by omega) with ⟨ls, h1, h2⟩ | ⟨good, ls, rest, h1, h2, h3, h4, h5⟩
        · obtain ⟨ls', h⟩ := fileOf_cons hraw h1
          exact Or.inl ⟨ls', h, fits_cons (by omega) h2⟩
        · obtain ⟨ls', h⟩ := fileOf_cons hraw h2
          refine Or.inr ⟨raw ++ 0x0A :: good, ls', rest, by rw [h1]; simp, h, Or.inr ?_, fits_cons (by omega) h4, h5⟩
          rcases h3 with rfl | h3
          · simp
          · rw [List.getLast?_append, List.getLast?_cons]
            simp [h3]

/-- The marker, then a long line: the hypotheses on the lines before it. -/
example : FileOf (utf8s (runesOf "\\hyphenation{") ++ [0x0A]) [utf8s (runesOf "\\hyphenation{")] ∧
    isMarker (stringRunes (utf8s (runesOf "\\hyphenation{"))) = true :=
  ⟨FileOf.lf _ (by decide +kernel) (by decide +kernel) .nil, by decide +kernel⟩

/-! ## C83 -/

theorem embedded_us (env : Env) : loadEmbedded env "ushyphmax.tex" =
    some (loadFile env (runesOf "patterns: ushyphmax.tex") (packedBytes usFile)) := by
  simp [loadEmbedded, embeddedBytes]

theorem embedded_gb (env : Env) : loadEmbedded env "hyph-en-gb.tex" =
    some (loadFile env (runesOf "patterns: hyph-en-gb.tex") (packedBytes gbFile)) := by
  simp [loadEmbedded, embeddedBytes]

theorem embedded_es (env : Env) : loadEmbedded env "hyph-es.tex" =
    some (loadFile env (runesOf "patterns: hyph-es.tex") (packedBytes esFile)) := by
  simp [loadEmbedded, embeddedBytes]

theorem embedded_fr (env : Env) : loadEmbedded env "hyph-fr.tex" =
    some (loadFile env (runesOf "patterns: hyph-fr.tex") (packedBytes frFile)) := by
  simp [loadEmbedded, embeddedBytes]

theorem embedded_de (env : Env) : loadEmbedded env "hyph-de-1996.tex" =
    some (loadFile env (runesOf "patterns: hyph-de-1996.tex") (packedBytes deFile)) := by
  simp [loadEmbedded, embeddedBytes]

/-- What C83 says of one file. -/
theorem shipped_load (env : Env) (he : UsualRunes env) (name : String) (h : name ∈ embeddedFiles) :
    ∃ dict, loadEmbedded env name = some (.ok dict) ∧
      (∀ k vals, dict.patterns.get k = some vals → vals.length ≤ k.length + 1) ∧
      (name = "hyph-es.tex" ∨ name = "hyph-fr.tex" ∨ name = "hyph-de-1996.tex" →
        ∀ word, dict.exceptions.get word = none) := by
  have hwf : ∀ {k body dict}, Loaded k env body dict →
      ∀ key vals, dict.patterns.get key = some vals → vals.length ≤ key.length + 1 := by
    intro k body dict hl key vals hg
    obtain ⟨ls, vs, rfl, rfl, h3, _⟩ := hl.entries key vals hg
    simpa [toInts] using h3
  simp only [embeddedFiles, List.mem_cons, List.not_mem_nil, or_false] at h
  rcases h with rfl | rfl | rfl | rfl | rfl
  · obtain ⟨dict, h1, h2, h3⟩ := de_loaded env he (runesOf "patterns: hyph-de-1996.tex")
    refine ⟨dict, by rw [embedded_de, h1], hwf h2, fun _ w => ?_⟩
    rw [h3 w, show exceptionEntries env ((cutLines (pieceBytes deFileTail) []).map stringRunes) = [] from by
      unfold exceptionEntries
      rw [show ((cutLines (pieceBytes deFileTail) []).map stringRunes).dropWhile (fun l => !isMarker l) = [] from
        by decide +kernel]
      rfl]
    rfl
  · obtain ⟨dict, h1, h2, _⟩ := gb_loaded env he (runesOf "patterns: hyph-en-gb.tex")
    exact ⟨dict, by rw [embedded_gb, h1], hwf h2, by simp⟩
  · obtain ⟨dict, h1, h2, h3⟩ := es_loaded env he (runesOf "patterns: hyph-es.tex")
    refine ⟨dict, by rw [embedded_es, h1], hwf h2, fun _ w => ?_⟩
    rw [h3 w, show exceptionEntries env ((cutLines (pieceBytes esFileTail) []).map stringRunes) = [] from by
      unfold exceptionEntries
      rw [show ((cutLines (pieceBytes esFileTail) []).map stringRunes).dropWhile (fun l => !isMarker l) = [] from
        by decide +kernel]
      rfl]
    rfl
  · obtain ⟨dict, h1, h2, h3⟩ := fr_loaded env he (runesOf "patterns: hyph-fr.tex")
    refine ⟨dict, by rw [embedded_fr, h1], hwf h2, fun _ w => ?_⟩
    rw [h3 w, show exceptionEntries env ((cutLines (pieceBytes frFileTail) []).map stringRunes) = [] from by
      unfold exceptionEntries
      rw [show ((cutLines (pieceBytes frFileTail) []).map stringRunes).dropWhile (fun l => !isMarker l) = [] from
        by decide +kernel]
      rfl]
    rfl
  · obtain ⟨dict, h1, h2, _⟩ := us_loaded env he (runesOf "patterns: ushyphmax.tex")
    exact ⟨dict, by rw [embedded_us, h1], hwf h2, by simp⟩

theorem supported_files : supportedPatterns = embeddedFiles :=
  List.mergeSort_of_pairwise (by decide +kernel)

/-- **C83.** `SupportedPatterns` lists, in order and without repetition, exactly the names for which
`LoadPatterns` gives a dictionary rather than an error. -/
theorem C83_supported_patterns (env : Env) (he : UsualRunes env) :
    (∀ name, name ∈ supportedPatterns ↔ ∃ dict, loadEmbedded env name = some (.ok dict)) ∧
      supportedPatterns.Pairwise (· < ·) := by
  have hs : supportedPatterns = embeddedFiles := supported_files
  rw [hs]
  refine ⟨fun name => ⟨fun h => ?_, fun h => ?_⟩, by decide +kernel⟩
  · obtain ⟨dict, h1, _⟩ := shipped_load env he name h
    exact ⟨dict, h1⟩
  · obtain ⟨dict, h1⟩ := h
    unfold loadEmbedded at h1
    obtain ⟨d, h2, _⟩ := Option.map_eq_some_iff.mp h1
    unfold embeddedBytes at h2
    repeat' split at h2
    all_goals first | (cases h2; done) | (rename_i hn; subst hn; decide)

/-- **C83.** In every shipped dictionary, a pattern has at most one value more than letters, as C12
supposes. -/
theorem C83_well_formed (env : Env) (he : UsualRunes env) (name : String) (h : name ∈ supportedPatterns) :
    ∃ dict, loadEmbedded env name = some (.ok dict) ∧
      ∀ k vals, dict.patterns.get k = some vals → vals.length ≤ k.length + 1 := by
  rw [show supportedPatterns = embeddedFiles from supported_files] at h
  obtain ⟨dict, h1, h2, _⟩ := shipped_load env he name h
  exact ⟨dict, h1, h2⟩

theorem langToPattern_embedded (t : Tag) : langToPattern t ∈ embeddedFiles := by
  unfold langToPattern
  repeat' split
  all_goals decide

theorem newBreakWord_eq (env : Env) (opts : List HOption) (word : List Rune) (dict : Dictionary)
    (h : loadEmbedded env (langToPattern (hyphenatorOptions opts).lang) = some (.ok dict)) :
    newBreakWord env opts word = hyphenatorBreakWord env dict
      ⟨(hyphenatorOptions opts).minLength, (hyphenatorOptions opts).minLeft, (hyphenatorOptions opts).minRight⟩
      word := by
  unfold newBreakWord
  simp only [h]
  rfl

/-- **C83.** A hyphenator made by `New` with any options never panics, whatever the word, and its parts make
up the word. -/
theorem C83_new_breaks_any_word (env : Env) (he : UsualRunes env) (opts : List HOption)
    (hr : 0 ≤ (hyphenatorOptions opts).minRight) (word : List Rune) :
    ∃ parts, newBreakWord env opts word = .ok parts ∧ parts ≠ [] ∧ parts.flatten = word := by
  obtain ⟨dict, h1, _⟩ := shipped_load env he _ (langToPattern_embedded (hyphenatorOptions opts).lang)
  rw [newBreakWord_eq env opts word dict h1]
  exact C09_hyphenator_partition env dict _ hr word

/-- **C12** for the shipped files without exceptions: in Spanish, French and German, words of at most 29 letters without hyphen are cut exactly where
Liang's algorithm says, with the patterns of the file (missing: longer words, as in C12). -/
theorem C12_shipped_partial (env : Env) (he : UsualRunes env) (opts : List HOption)
    (hlang : langToPattern (hyphenatorOptions opts).lang = "hyph-es.tex" ∨
      langToPattern (hyphenatorOptions opts).lang = "hyph-fr.tex" ∨
      langToPattern (hyphenatorOptions opts).lang = "hyph-de-1996.tex")
    (hl : 1 ≤ (hyphenatorOptions opts).minLeft) (hr : 2 ≤ (hyphenatorOptions opts).minRight)
    (word : List Rune) (hh : ∀ r ∈ word, isHyphenRune r = false)
    (hm : (hyphenatorOptions opts).minLength ≤ word.length) (hn : word.length ≤ 29) :
    ∃ dict cuts, loadEmbedded env (langToPattern (hyphenatorOptions opts).lang) = some (.ok dict) ∧
      IsCuts (LiangAllows env dict word) (hyphenatorOptions opts).minLeft (hyphenatorOptions opts).minRight
        word.length cuts ∧
      newBreakWord env opts word = .ok (cutAt word 0 cuts) := by
  obtain ⟨dict, h1, h2, h3⟩ := shipped_load env he _ (langToPattern_embedded (hyphenatorOptions opts).lang)
  obtain ⟨cuts, h4, h5⟩ := C12_liang_partial env dict
    ⟨(hyphenatorOptions opts).minLength, (hyphenatorOptions opts).minLeft, (hyphenatorOptions opts).minRight⟩
    word h2 hl hr hh hm (h3 hlang word) hn
  exact ⟨dict, cuts, h1, h4, by rw [newBreakWord_eq env opts word dict h1]; exact h5⟩

/-! ## C84 -/

/-- The parts of a word. -/
def partsOf (ps : List String) : List (List Rune) := ps.map runesOf

/-- The exceptions of the American file (languages/ushyphmax.tex:4942-4955). -/
def usExceptions : List (List (List Rune)) :=
  [partsOf ["as", "so", "ciate"], partsOf ["as", "so", "ciates"], partsOf ["dec", "li", "na", "tion"],
   partsOf ["oblig", "a", "tory"], partsOf ["phil", "an", "thropic"], partsOf ["present"], partsOf ["presents"],
   partsOf ["project"], partsOf ["projects"], partsOf ["reci", "procity"], partsOf ["re", "cog", "ni", "zance"],
   partsOf ["ref", "or", "ma", "tion"], partsOf ["ret", "ri", "bu", "tion"], partsOf ["ta", "ble"]]

/-- The exceptions of the British file, but for the last one. -/
def gbExceptions : List (List (List Rune)) :=
  [partsOf ["uni", "ver", "sity"], partsOf ["uni", "ver", "sit", "ies"], partsOf ["how", "ever"],
   partsOf ["ma", "nu", "script"], partsOf ["ma", "nu", "scripts"], partsOf ["re", "ci", "pro", "city"],
   partsOf ["through", "out"]]

/-- The options respect the parts of a word. -/
def MinimaMet (o : HSettings) (parts : List (List Rune)) : Prop :=
  o.minLength ≤ parts.flatten.length ∧ 0 ≤ o.minRight ∧ (∀ p ∈ parts.dropLast, o.minLeft ≤ (p.length : Int)) ∧
    ∀ p, parts.getLast? = some p → o.minRight ≤ (p.length : Int)

/-- **C84**, American English: the words listed as exceptions are broken as listed. -/
theorem C84_american_exceptions (env : Env) (he : UsualRunes env) (opts : List HOption)
    (hlang : langToPattern (hyphenatorOptions opts).lang = "ushyphmax.tex")
    (parts : List (List Rune)) (hp : parts ∈ usExceptions) (hmin : MinimaMet (hyphenatorOptions opts) parts) :
    newBreakWord env opts parts.flatten = .ok parts := by
  obtain ⟨dict, h1, _, h3⟩ := us_loaded env he (runesOf "patterns: ushyphmax.tex")
  rw [newBreakWord_eq env opts _ dict (by rw [hlang, embedded_us, h1])]
  have hall : ∀ parts ∈ usExceptions, parts ≠ [] ∧ (∀ p ∈ parts, p ≠ [] ∧ ∀ r ∈ p, isHyphenRune r = false) ∧
      lastDef (exceptionEntries Env.ascii ((cutLines (pieceBytes usFileTail) []).map stringRunes)) parts.flatten =
        some (gapMarks isHyphenRune (fun _ => 1) (List.intercalate [0x2D] parts)) := by decide +kernel
  obtain ⟨a, b, c⟩ := hall parts hp
  refine exception_word env dict _ parts a b ?_ hmin.1 hmin.2.1 hmin.2.2.1 hmin.2.2.2
  rw [h3, exceptionEntries_usual he _ (by decide +kernel)]
  exact c

/-- **C84**, British English: the words listed as exceptions, but for the last one, are broken as listed
(missing: the last one, see `C84_something_fails`). -/
theorem C84_british_exceptions_partial (env : Env) (he : UsualRunes env) (opts : List HOption)
    (hlang : langToPattern (hyphenatorOptions opts).lang = "hyph-en-gb.tex")
    (parts : List (List Rune)) (hp : parts ∈ gbExceptions) (hmin : MinimaMet (hyphenatorOptions opts) parts) :
    newBreakWord env opts parts.flatten = .ok parts := by
  obtain ⟨dict, h1, _, h3⟩ := gb_loaded env he (runesOf "patterns: hyph-en-gb.tex")
  rw [newBreakWord_eq env opts _ dict (by rw [hlang, embedded_gb, h1])]
  have hall : ∀ parts ∈ gbExceptions, parts ≠ [] ∧ (∀ p ∈ parts, p ≠ [] ∧ ∀ r ∈ p, isHyphenRune r = false) ∧
      lastDef (exceptionEntries Env.ascii ((cutLines (pieceBytes gbFileTail) []).map stringRunes)) parts.flatten =
        some (gapMarks isHyphenRune (fun _ => 1) (List.intercalate [0x2D] parts)) := by decide +kernel
  obtain ⟨a, b, c⟩ := hall parts hp
  refine exception_word env dict _ parts a b ?_ hmin.1 hmin.2.1 hmin.2.2.1 hmin.2.2.2
  rw [h3, exceptionEntries_usual he _ (by decide +kernel)]
  exact c

/-- The default options meet the minima of most of these words. -/
example : MinimaMet (hyphenatorOptions []) (partsOf ["re", "cog", "ni", "zance"]) := by
  refine ⟨by decide, by decide, by decide, ?_⟩
  intro p h
  cases h
  decide

/-- What a table says of a word that is not an exception. -/
theorem table_word {k : List Nat → List Nat → Bool} {env : Env} {body : List (Nat × Nat)} {dict : Dictionary}
    (he : UsualRunes env) (h : Loaded k env body dict) (w : List Nat) (tbl : List (List Nat × List Nat))
    (src : List (Nat × List Nat)) (hk : ∀ ls vs, k ls vs = true → tableOk w tbl ls vs = true)
    (hpres : presentOk body tbl src = true)
    (huniq : ∀ e ∈ tbl, (tableDict tbl).patterns.get (toInts e.1.reverse) = some (toInts e.2.reverse))
    (word : List Rune) (hword : dotted Env.ascii.toLower word = toInts w.reverse)
    (hr : ∀ r ∈ word, PatternRune r)
    (hexc : dict.exceptions.get word = none) (o : HOptions) :
    hyphenatorBreakWord env dict o word = hyphenatorBreakWord Env.ascii (tableDict tbl) o word := by
  have hlow : ∀ r ∈ word, env.toLower r = Env.ascii.toLower r := fun r hm => (usual_agree he (Or.inl (hr r hm))).2
  rw [loaded_word h w tbl hk (presentOk_sound h he tbl src hpres) huniq word
    (by rw [← hword]; unfold dotted; rw [List.map_congr_left hlow]) hexc o]
  exact breakWord_env _ _ _ _ _ hlow

/-- **C84 fails** for "some-thing", the last exception of the British file: the word is not broken, as the
closing brace is on the same line. -/
theorem C84_something_fails (env : Env) (he : UsualRunes env) (opts : List HOption)
    (hlang : langToPattern (hyphenatorOptions opts).lang = "hyph-en-gb.tex")
    (hmin : (hyphenatorOptions opts).minLength = 4 ∧ (hyphenatorOptions opts).minLeft = 2 ∧
      (hyphenatorOptions opts).minRight = 2) :
    newBreakWord env opts (runesOf "something") = .ok [runesOf "something"] := by
  obtain ⟨dict, h1, h2, h3⟩ := gb_loaded env he (runesOf "patterns: hyph-en-gb.tex")
  rw [newBreakWord_eq env opts _ dict (by rw [hlang, embedded_gb, h1]), hmin.1, hmin.2.1, hmin.2.2]
  rw [table_word he h2 somethingText somethingTable somethingLines (fun ls vs h => h) something_present
    (by decide +kernel) _ (by decide +kernel) (by decide +kernel)
    (by rw [h3, exceptionEntries_usual he _ (by decide +kernel)]; decide +kernel)]
  decide +kernel

example : hyphenatorOptions [.lang britishEnglish] = ⟨britishEnglish, 4, 2, 2⟩ := by decide

/-! ## C85 -/

/-- Between two consecutive parts, the value of Liang's algorithm is odd. -/
theorem adjacent_odd (env : Env) (dict : Dictionary) (o : HOptions) (word : List Rune)
    (hw : ∀ k vals, dict.patterns.get k = some vals → vals.length ≤ k.length + 1)
    (hl : 1 ≤ o.minLeft) (hr : 2 ≤ o.minRight) (he : dict.exceptions.get word = none) :
    ∃ parts, hyphenatorBreakWord env dict o word = .ok parts ∧
      ∀ ps p q qs x y, parts = ps ++ p :: q :: qs → p.getLast? = some x → q.head? = some y →
        ∃ pre post v, dotted env.toLower word = pre ++ env.toLower x :: env.toLower y :: post ∧
          GapValue (fun s => dict.patterns.get s) (dotted env.toLower word) (pre.length + 1) v ∧ v % 2 = 1 := by
  obtain ⟨cuts, h1, h2, h3⟩ := C12_sound_partial env dict o word hw hl hr he
  refine ⟨_, h1, fun ps p q qs x y hp hx hy => ?_⟩
  obtain ⟨c, hc, h4, h5⟩ := cutAt_adjacent word cuts 0 h2 (fun c hc => ⟨(h3 c hc).1, (h3 c hc).2.1⟩) ps p q qs hp
  obtain ⟨h6, h7, v, h8, h9⟩ := h3 c hc
  rw [h4] at hx
  rw [h5] at hy
  have hlen := dotted_length env.toLower word
  have hdx : (dotted env.toLower word)[c]? = some (env.toLower x) := by
    unfold dotted
    obtain ⟨d, rfl⟩ : ∃ d, c = d + 1 := ⟨c - 1, by omega⟩
    rw [List.getElem?_cons_succ, List.getElem?_append_left (by simp; omega), List.getElem?_map]
    simp only [Nat.add_sub_cancel] at hx
    rw [hx]; rfl
  have hdy : (dotted env.toLower word)[c + 1]? = some (env.toLower y) := by
    unfold dotted
    rw [List.getElem?_cons_succ, List.getElem?_append_left (by simp; omega), List.getElem?_map, hy]; rfl
  refine ⟨(dotted env.toLower word).take c, (dotted env.toLower word).drop (c + 2), v, ?_, ?_, h9⟩
  · obtain ⟨a1, a2⟩ := List.getElem?_eq_some_iff.mp hdx
    obtain ⟨b1, b2⟩ := List.getElem?_eq_some_iff.mp hdy
    conv => lhs; rw [← List.take_append_drop c (dotted env.toLower word)]
    rw [List.drop_eq_getElem_cons a1, List.drop_eq_getElem_cons b1, a2, b2]
  · rw [List.length_take, Nat.min_eq_left (by omega)]
    exact h8

/-- Two letters. -/
def pairs (l : List String) : List (List Rune) := l.map runesOf

/-- The groups of letters that Spanish words are never divided between. -/
def spanishPairs : List (List Rune) := pairs ["cr", "dr", "fr", "gr", "kr", "pr", "vr", "tx", "tz", "ll"]

/-- The groups of letters that French words are never divided between. -/
def frenchPairs : List (List Rune) :=
  pairs ["cr", "dr", "fr", "gr", "kr", "pr", "vr", "cl", "fl", "gl", "pl", "ch", "ph"]

/-- **C85**, Spanish. -/
theorem C85_spanish_groups (env : Env) (he : UsualRunes env) (opts : List HOption)
    (hlang : langToPattern (hyphenatorOptions opts).lang = "hyph-es.tex")
    (hl : 1 ≤ (hyphenatorOptions opts).minLeft) (hr : 2 ≤ (hyphenatorOptions opts).minRight) (word : List Rune) :
    ∃ parts, newBreakWord env opts word = .ok parts ∧
      ∀ ps p q qs x y, parts = ps ++ p :: q :: qs → p.getLast? = some x → q.head? = some y →
        [env.toLower x, env.toLower y] ∉ spanishPairs := by
  obtain ⟨dict0, h1, h2, h3⟩ := shipped_load env he "hyph-es.tex" (by decide)
  obtain ⟨dict, g1, g2, _⟩ := es_loaded env he (runesOf "patterns: hyph-es.tex")
  have : dict0 = dict := by
    rw [embedded_es, g1] at h1; cases h1; rfl
  subst this
  rw [newBreakWord_eq env opts _ dict0 (by rw [hlang]; exact h1)]
  obtain ⟨parts, h4, h5⟩ := adjacent_odd env dict0 ⟨(hyphenatorOptions opts).minLength,
    (hyphenatorOptions opts).minLeft, (hyphenatorOptions opts).minRight⟩ word h2 hl hr (h3 (Or.inl rfl) word)
  refine ⟨parts, h4, fun ps p q qs x y hp hx hy hmem => ?_⟩
  obtain ⟨pre, post, v, e1, e2, e3⟩ := h5 ps p q qs x y hp hx hy
  have hpres := presentOk_sound g2 he esPairs esPairLines es_pairs_present
  have hk : ∀ ls vs, esCheck ls vs = true → _ := fun ls vs h => by
    unfold esCheck at h
    simp only [Bool.and_eq_true] at h
    exact h
  have hgroups : ∀ a b : Rune, [a, b] ∈ spanishPairs →
      (a ∈ toInts [99, 100, 102, 103, 107, 112, 118] ∧ b ∈ toInts [114]) ∨
      (a ∈ toInts [116] ∧ b ∈ toInts [120, 122]) ∨ (a ∈ toInts [108] ∧ b ∈ toInts [108]) := by
    intro a b h
    simp only [spanishPairs, pairs, List.map_cons, List.map_nil, List.mem_cons, List.not_mem_nil, or_false] at h
    rcases h with h | h | h | h | h | h | h | h | h | h
    all_goals
      obtain ⟨rfl, rfl⟩ : a = _ ∧ b = _ := by simpa [runesOf] using h
      decide
  have hsub : ∀ (xs ys : List Nat), (∀ x ∈ xs, ∀ y ∈ ys, ∃ e ∈ esPairs, e.1 = [y, x]) →
      ∀ x ∈ xs, ∀ y ∈ ys, ∃ vals, dict0.patterns.get (toInts [x, y]) = some vals := by
    intro xs ys h x hx y hy
    obtain ⟨e, he1, he2⟩ := h x hx y hy
    have := hpres e he1
    rw [he2] at this
    exact this
  have hv : v % 2 = 0 := by
    rcases hgroups _ _ hmem with ⟨a, b⟩ | ⟨a, b⟩ | ⟨a, b⟩
    · exact loaded_pair g2 _ _ 2 (fun ls vs h => ⟨(hk ls vs h).1.1.1.1.1.2, (hk ls vs h).1.1.1.1.2⟩)
        (hsub _ _ (by decide)) _ _ _ _ _ e1 a b v e2
    · exact loaded_pair g2 _ _ 2 (fun ls vs h => ⟨(hk ls vs h).1.1.1.2, (hk ls vs h).1.1.2⟩)
        (hsub _ _ (by decide)) _ _ _ _ _ e1 a b v e2
    · exact loaded_pair g2 _ _ 4 (fun ls vs h => ⟨(hk ls vs h).1.2, (hk ls vs h).2⟩)
        (hsub _ _ (by decide)) _ _ _ _ _ e1 a b v e2
  omega

/-- A word with such a group: ca-lle. -/
theorem spanish_calle (env : Env) (he : UsualRunes env) :
    newBreakWord env [.lang spanish] (runesOf "calle") = .ok [runesOf "ca", runesOf "lle"] := by
  obtain ⟨dict, h1, h2, h3⟩ := es_loaded env he (runesOf "patterns: hyph-es.tex")
  rw [newBreakWord_eq env _ _ dict (by
    rw [show langToPattern (hyphenatorOptions [.lang spanish]).lang = "hyph-es.tex" from by decide, embedded_es, h1])]
  rw [table_word he h2 calleText calleTable calleLines (fun ls vs h => by
      unfold esCheck at h
      simp only [Bool.and_eq_true] at h
      exact h.1.1.1.1.1.1) calle_present
    (by decide +kernel) _ (by decide +kernel) (by decide +kernel)
    (by rw [h3, exceptionEntries_usual he _ (by decide +kernel)]; decide +kernel)]
  decide +kernel

/-- **C85**, French: the groups of letters, and the apostrophe, after which a word is only divided before d
or p. -/
theorem C85_french_groups (env : Env) (he : UsualRunes env) (opts : List HOption)
    (hlang : langToPattern (hyphenatorOptions opts).lang = "hyph-fr.tex")
    (hl : 1 ≤ (hyphenatorOptions opts).minLeft) (hr : 2 ≤ (hyphenatorOptions opts).minRight) (word : List Rune) :
    ∃ parts, newBreakWord env opts word = .ok parts ∧
      ∀ ps p q qs x y, parts = ps ++ p :: q :: qs → p.getLast? = some x → q.head? = some y →
        [env.toLower x, env.toLower y] ∉ frenchPairs ∧
        (env.toLower x = 0x27 → env.toLower y = 0x64 ∨ env.toLower y = 0x70) := by
  obtain ⟨dict0, h1, h2, h3⟩ := shipped_load env he "hyph-fr.tex" (by decide)
  obtain ⟨dict, g1, g2, _⟩ := fr_loaded env he (runesOf "patterns: hyph-fr.tex")
  have : dict0 = dict := by
    rw [embedded_fr, g1] at h1; cases h1; rfl
  subst this
  rw [newBreakWord_eq env opts _ dict0 (by rw [hlang]; exact h1)]
  obtain ⟨parts, h4, h5⟩ := adjacent_odd env dict0 ⟨(hyphenatorOptions opts).minLength,
    (hyphenatorOptions opts).minLeft, (hyphenatorOptions opts).minRight⟩ word h2 hl hr
    (h3 (Or.inr (Or.inl rfl)) word)
  refine ⟨parts, h4, fun ps p q qs x y hp hx hy => ?_⟩
  obtain ⟨pre, post, v, e1, e2, e3⟩ := h5 ps p q qs x y hp hx hy
  have hpres := presentOk_sound g2 he frPairs frPairLines fr_pairs_present
  have hpres2 := presentOk_sound g2 he alcoolTable alcoolLines alcool_present
  have hk : ∀ ls vs, frCheck ls vs = true → _ := fun ls vs h => by
    unfold frCheck at h
    simp only [Bool.and_eq_true] at h
    exact h
  have hgroups : ∀ a b : Rune, [a, b] ∈ frenchPairs →
      (a ∈ toInts [99, 100, 102, 103, 107, 112, 118] ∧ b ∈ toInts [114]) ∨
      (a ∈ toInts [99, 102, 103, 112] ∧ b ∈ toInts [108]) ∨ (a ∈ toInts [99, 112] ∧ b ∈ toInts [104]) := by
    intro a b h
    simp only [frenchPairs, pairs, List.map_cons, List.map_nil, List.mem_cons, List.not_mem_nil, or_false] at h
    rcases h with h | h | h | h | h | h | h | h | h | h | h | h | h
    all_goals
      obtain ⟨rfl, rfl⟩ : a = _ ∧ b = _ := by simpa [runesOf] using h
      decide
  have hsub : ∀ (xs ys : List Nat), (∀ x ∈ xs, ∀ y ∈ ys, ∃ e ∈ frPairs, e.1 = [y, x]) →
      ∀ x ∈ xs, ∀ y ∈ ys, ∃ vals, dict0.patterns.get (toInts [x, y]) = some vals := by
    intro xs ys h x hx y hy
    obtain ⟨e, he1, he2⟩ := h x hx y hy
    have := hpres e he1
    rw [he2] at this
    exact this
  constructor
  · intro hmem
    have hv : v % 2 = 0 := by
      rcases hgroups _ _ hmem with ⟨a, b⟩ | ⟨a, b⟩ | ⟨a, b⟩
      · exact loaded_pair g2 _ _ 2 (fun ls vs h => ⟨(hk ls vs h).1.1.1.1.1.1.1.2, (hk ls vs h).1.1.1.1.1.1.2⟩)
          (hsub _ _ (by decide)) _ _ _ _ _ e1 a b v e2
      · exact loaded_pair g2 _ _ 2 (fun ls vs h => ⟨(hk ls vs h).1.1.1.1.1.2, (hk ls vs h).1.1.1.1.2⟩)
          (hsub _ _ (by decide)) _ _ _ _ _ e1 a b v e2
      · exact loaded_pair g2 _ _ 2 (fun ls vs h => ⟨(hk ls vs h).1.1.1.2, (hk ls vs h).1.1.2⟩)
          (hsub _ _ (by decide)) _ _ _ _ _ e1 a b v e2
    omega
  · intro hap
    by_cases hd : env.toLower y = 0x64 ∨ env.toLower y = 0x70
    · exact hd
    · exfalso
      have hv : v % 2 = 0 := by
        refine never_between (fun s => dict0.patterns.get s) (Nat.beq 39)
          (fun y => !(Nat.beq y 100 || Nat.beq y 112)) 2 (· = 0x27) (fun y => ¬ (y = 0x64 ∨ y = 0x70))
          ?_ ?_ ?_ ?_ _ _ _ _ _ e1 hap hd v e2
        · intro n hn
          rw [Nat.beq_eq]
          omega
        · intro n hn
          cases h100 : Nat.beq n 100 with
          | true => rw [Nat.beq_eq] at h100; omega
          | false =>
            cases h112 : Nat.beq n 112 with
            | true => rw [Nat.beq_eq] at h112; omega
            | false => rfl
        · intro key vals hg
          obtain ⟨ls, vs, a1, a2, a3, a4⟩ := g2.entries key vals hg
          exact ⟨ls.reverse, vs.reverse, a1, a2, by simpa using a3, (hk ls vs a4).1.2⟩
        · intro a b ha hb
          subst ha
          obtain ⟨vals, hg⟩ := hpres2 ([39], [2, 2]) (by decide)
          obtain ⟨ls, vs, a1, a2, a3, a4⟩ := g2.entries _ vals hg
          have hls : ls = [39] := by
            have := congrArg List.reverse (toInts_inj a1)
            simpa using this.symm
          subst hls
          have hvs : vs = [2, 2] := by
            have := (hk _ vs a4).2
            simpa using this
          subst hvs
          exact ⟨vals, 2, by decide, Or.inr (Or.inl ⟨hg, by rw [a2]; rfl⟩)⟩
      omega

/-- A word with an apostrophe: l'al-cool. -/
theorem french_alcool (env : Env) (he : UsualRunes env) :
    newBreakWord env [.lang french] (runesOf "l'alcool") = .ok [runesOf "l'al", runesOf "cool"] := by
  obtain ⟨dict, h1, h2, h3⟩ := fr_loaded env he (runesOf "patterns: hyph-fr.tex")
  rw [newBreakWord_eq env _ _ dict (by
    rw [show langToPattern (hyphenatorOptions [.lang french]).lang = "hyph-fr.tex" from by decide, embedded_fr, h1])]
  rw [table_word he h2 alcoolText alcoolTable alcoolLines (fun ls vs h => by
      unfold frCheck at h
      simp only [Bool.and_eq_true] at h
      exact h.1.1.1.1.1.1.1.1) alcool_present
    (by decide +kernel) _ (by decide +kernel) (by decide +kernel)
    (by rw [h3, exceptionEntries_usual he _ (by decide +kernel)]; decide +kernel)]
  decide +kernel

/-- An American and a German word, broken with the default minima. -/
theorem american_example (env : Env) (he : UsualRunes env) :
    newBreakWord env [] (runesOf "example") = .ok [runesOf "ex", runesOf "am", runesOf "ple"] := by
  obtain ⟨dict, h1, h2, h3⟩ := us_loaded env he (runesOf "patterns: ushyphmax.tex")
  rw [newBreakWord_eq env _ _ dict (by
    rw [show langToPattern (hyphenatorOptions []).lang = "ushyphmax.tex" from by decide, embedded_us, h1])]
  rw [table_word he h2 exampleText exampleTable exampleLines (fun ls vs h => h) example_present
    (by decide +kernel) _ (by decide +kernel) (by decide +kernel)
    (by rw [h3, exceptionEntries_usual he _ (by decide +kernel)]; decide +kernel)]
  decide +kernel

theorem german_silbentrennung (env : Env) (he : UsualRunes env) :
    newBreakWord env [.lang german] (runesOf "silbentrennung") =
      .ok [runesOf "sil", runesOf "ben", runesOf "tren", runesOf "nung"] := by
  obtain ⟨dict, h1, h2, h3⟩ := de_loaded env he (runesOf "patterns: hyph-de-1996.tex")
  rw [newBreakWord_eq env _ _ dict (by
    rw [show langToPattern (hyphenatorOptions [.lang german]).lang = "hyph-de-1996.tex" from by decide,
      embedded_de, h1])]
  rw [table_word he h2 silbenText silbenTable silbenLines (fun ls vs h => h) silben_present
    (by decide +kernel) _ (by decide +kernel) (by decide +kernel)
    (by rw [h3, exceptionEntries_usual he _ (by decide +kernel)]; decide +kernel)]
  decide +kernel

/-! ## C86 -/

theorem lastDef_skip (a b c : List (List Rune × List Int)) (key : List Rune) (h : ∀ e ∈ b, e.1 ≠ key) :
    lastDef (a ++ b ++ c) key = lastDef (a ++ c) key := by
  unfold lastDef
  rw [List.reverse_append, List.reverse_append, List.reverse_append, List.find?_append, List.find?_append,
    List.find?_append]
  rw [show b.reverse.find? (fun e => e.1 == key) = none from by
    rw [List.find?_eq_none]
    intro e he
    simpa using h e (List.mem_reverse.mp he)]
  rfl

/-- **C86.** A line of patterns has no influence on the words in which none of its patterns occurs. -/
theorem C86_patterns_are_local (env : Env) (id : List Rune) (o : HOptions) (pre post : List (List Rune))
    (line word : List Rune) (hpre : ∀ l ∈ pre, isMarker l = false) (hline : isMarker line = false)
    (hloc : ∀ p ∈ words line, ¬ patternLetters env p <:+: dotted env.toLower word) :
    ∃ d1 d2, loadPatterns env id (pre ++ post) = .ok d1 ∧ loadPatterns env id (pre ++ line :: post) = .ok d2 ∧
      hyphenatorBreakWord env d2 o word = hyphenatorBreakWord env d1 o word := by
  obtain ⟨d1, a1, a2, a3⟩ := loadPatterns_spec env id (pre ++ post)
  obtain ⟨d2, b1, b2, b3⟩ := loadPatterns_spec env id (pre ++ line :: post)
  refine ⟨d1, d2, a1, b1, ?_⟩
  have hpos : ∀ a ∈ pre, (!isMarker a) = true := fun a ha => by simp [hpre a ha]
  apply breakWord_congr
  · intro pr frag po hne hd
    rw [a2, b2]
    unfold patternEntries
    rw [List.takeWhile_append_of_pos hpos, List.takeWhile_append_of_pos hpos, List.takeWhile_cons, hline]
    simp only [Bool.not_false, if_true, List.filter_append, List.flatMap_append, List.map_append]
    rw [show line :: post.takeWhile (fun l => !isMarker l) = [line] ++ post.takeWhile (fun l => !isMarker l) from rfl]
    simp only [List.filter_append, List.flatMap_append, List.map_append]
    rw [← List.append_assoc]
    apply lastDef_skip
    intro e he hf
    obtain ⟨p, hp, rfl⟩ := List.mem_map.mp he
    obtain ⟨l, hl, hpl⟩ := List.mem_flatMap.mp hp
    have : l = line := by simpa using (List.mem_filter.mp hl).1
    subst this
    exact hloc p hpl ⟨pr, po, by rw [hd, ← hf]⟩
  · rw [a3, b3]
    unfold exceptionEntries
    rw [List.dropWhile_append_of_pos hpos, List.dropWhile_append_of_pos hpos, List.dropWhile_cons, hline]
    rfl

/-- **C86.** An exception has no influence on the other words. -/
theorem C86_exceptions_are_local (env : Env) (id : List Rune) (o : HOptions) (pre mid post : List (List Rune))
    (marker line word : List Rune) (hmark : isMarker marker = true)
    (hword : (exceptionEntry env line).1 ≠ word) :
    ∃ d1 d2, loadPatterns env id (pre ++ marker :: (mid ++ post)) = .ok d1 ∧
      loadPatterns env id (pre ++ marker :: (mid ++ line :: post)) = .ok d2 ∧
      hyphenatorBreakWord env d2 o word = hyphenatorBreakWord env d1 o word := by
  obtain ⟨d1, a1, a2, a3⟩ := loadPatterns_spec env id (pre ++ marker :: (mid ++ post))
  obtain ⟨d2, b1, b2, b3⟩ := loadPatterns_spec env id (pre ++ marker :: (mid ++ line :: post))
  refine ⟨d1, d2, a1, b1, ?_⟩
  have hex : ∀ (q : List (List Rune)), ∃ c, ∀ r : List (List Rune),
      ((pre ++ marker :: (mid ++ r)).dropWhile (fun l => !isMarker l)).drop 1 = c ++ (mid ++ r) ∧
      (pre ++ marker :: (mid ++ r)).takeWhile (fun l => !isMarker l) =
        pre.takeWhile (fun l => !isMarker l) := by
    intro q
    clear a1 a2 a3 b1 b2 b3
    induction pre with
    | nil => exact ⟨[], fun r => by simp [hmark]⟩
    | cons l pre ih =>
      cases hm : isMarker l with
      | true => exact ⟨pre ++ [marker], fun r => by simp [hm]⟩
      | false =>
        obtain ⟨c, hc⟩ := ih
        exact ⟨c, fun r => by simpa [hm] using hc r⟩
  obtain ⟨c, hc⟩ := hex []
  apply breakWord_congr
  · intro pr frag po _ _
    rw [a2, b2]
    unfold patternEntries
    rw [(hc post).2, (hc (line :: post)).2]
  · rw [a3, b3]
    unfold exceptionEntries
    rw [(hc post).1, (hc (line :: post)).1]
    rw [show c ++ (mid ++ line :: post) = (c ++ mid) ++ [line] ++ post from by simp, ← List.append_assoc]
    simp only [List.map_append]
    apply lastDef_skip
    intro e he
    have : e = exceptionEntry env line := by simpa using he
    subst this
    exact hword

/-- The pattern "qu1x" does not occur in "example"; the exception "ta-ble" is for another word. -/
example : ¬ patternLetters Env.ascii (runesOf "qu1x") <:+: dotted Env.ascii.toLower (runesOf "example") :=
  fun h => absurd (h.subset (show (0x71 : Int) ∈ _ from by decide)) (by decide)
example : (exceptionEntry Env.ascii (runesOf "ta-ble")).1 ≠ runesOf "tables" := by decide

end Verif.Props
