import Verif.Proofs.PrintTables
import Verif.Props.BuildTables

/-! # Property C99: the source file of the tables of widths -/

namespace Verif.Props
open Verif.Go Verif.Model Verif.Spec Verif.Proofs

/-- **C99.** For any name made of letters and any ranges of runes, `generate` writes a declaration of a table with
this name and exactly these ranges: whatever source comes next, the text can be read in no other way. -/
theorem C99_generate (v : String) (t : List (Rune × Rune)) (s : List Rune)
    (ds : List (List Rune × List (Rune × Rune))) (hv : ∀ c ∈ runesOf v, GoLetter c) (hne : runesOf v ≠ [])
    (ht : ∀ iv ∈ t, 0 ≤ iv.1 ∧ 0 ≤ iv.2) (hs : GoSource s ds) (r : List (List Rune × List (Rune × Rune))) :
    GoSource (generate v t ++ s) r ↔ r = (runesOf v, t) :: ds := by
  have h := generate_source hv hne ht hs
  exact ⟨fun h' => (goSource_unique h h' rfl).symm, fun e => e ▸ h⟩

/-- The ranges of a table made of entries have no negative bound. -/
theorem tableFor_nonneg {es : List UcdEntry} {p : UcdEntry → Prop} {t : List (Rune × Rune)} (h : TableFor es p t)
    (h0 : ∀ e ∈ es, 0 ≤ e.lo) : ∀ iv ∈ t, 0 ≤ iv.1 ∧ 0 ≤ iv.2 := by
  intro iv hiv
  have h1 := h.1.1 iv hiv
  obtain ⟨e, he, -, h2, -⟩ := (h.2 iv.1).mp ⟨iv, hiv, Int.le_refl _, h1⟩
  have := h0 e he
  omega

theorem rangeThen_nonneg {l : List Rune} {lo hi : Rune} {after : List Rune} (h : RangeThen l lo hi after) : 0 ≤ lo := by
  obtain ⟨-, -, ⟨ds, es, h, -⟩ | ⟨ds, h, -⟩⟩ := h
  · exact (hexNumber_facts h).1
  · exact (hexNumber_facts h).1

theorem ucdFile_nonneg {entry : UcdEntry → Prop} (h : ∀ e, entry e → 0 ≤ e.lo) {ls : List (List Rune)}
    {es : List UcdEntry} (hf : UcdFile entry ls es) : ∀ e ∈ es, 0 ≤ e.lo := by
  induction hf with
  | nil => intro e he; cases he
  | skip _ _ ih => exact ih
  | entry he _ ih =>
    intro e h'
    rcases List.mem_cons.mp h' with rfl | h'
    · exact h _ he
    · exact ih e h'

/-- **C99.** From two data files in the formats of EastAsianWidth.txt and emoji-data.txt, the program writes source
that declares six tables: each has the runes of its class and no other. -/
theorem C99_program (data data' : List Nat) (ls ls' : List (List Rune)) (es es' : List UcdEntry)
    (hu : ∀ l ∈ ls, ∀ r ∈ l, IsScalar r) (hf : FileOf data (ls.map utf8s))
    (hlen : ∀ l ∈ ls, (utf8s l).length ≤ 65534) (he : UcdFile WidthEntry ls es)
    (hs : SortedRanges (es.map (fun e => (e.lo, e.hi))))
    (hu' : ∀ l ∈ ls', ∀ r ∈ l, IsScalar r) (hf' : FileOf data' (ls'.map utf8s))
    (hlen' : ∀ l ∈ ls', (utf8s l).length ≤ 65534) (he' : UcdFile EmojiEntry ls' es')
    (hs' : SortedRanges ((es'.filter (fun e => containsText (runesOf "Extended_Pictographic") e.line)).map
      (fun e => (e.lo, e.hi)))) :
    ∃ cmb dbl amb na nu emo : List (Rune × Rune),
      TableFor es (fun e => runesOf "COMBINING" <:+: e.line) cmb ∧
      TableFor es (fun e => e.cls = runesOf "W" ∨ e.cls = runesOf "F") dbl ∧
      TableFor es (fun e => e.cls = runesOf "A") amb ∧
      TableFor es (fun e => e.cls = runesOf "Na") na ∧
      TableFor es (fun e => e.cls = runesOf "N") nu ∧
      TableFor es' (fun e => runesOf "Extended_Pictographic" <:+: e.line ∧ 0xFF ≤ e.hi) emo ∧
      ∀ r, GoSource (printTables data data') r ↔
        r = [(runesOf "combining", cmb), (runesOf "doublewidth", dbl), (runesOf "ambiguous", amb),
          (runesOf "narrow", na), (runesOf "neutral", nu), (runesOf "emoji", emo)] := by
  obtain ⟨h1, h2, h3, h4, h5⟩ := C91_width_tables data ls es hu hf hlen he hs
  have h6 := C91_emoji_table data' ls' es' hu' hf' hlen' he' hs'
  have hn := ucdFile_nonneg (fun e (h : WidthEntry e) => by obtain ⟨r, h, -⟩ := h; exact rangeThen_nonneg h) he
  have hn' := ucdFile_nonneg (fun e (h : EmojiEntry e) => by obtain ⟨r, h, -⟩ := h; exact rangeThen_nonneg h) he'
  refine ⟨_, _, _, _, _, _, h5, h1, h2, h3, h4, h6, fun r => ?_⟩
  have l6 := letters_of "emoji" (by decide)
  have h : GoSource (printTables data data') [(runesOf "combining", (eastasianTables data).cmb),
      (runesOf "doublewidth", (eastasianTables data).dbl), (runesOf "ambiguous", (eastasianTables data).amb),
      (runesOf "narrow", (eastasianTables data).na), (runesOf "neutral", (eastasianTables data).nu),
      (runesOf "emoji", emojiTable data')] := by
    unfold printTables
    rw [List.append_assoc]
    refine printHead_source (printEastasian_source (t := eastasianTables data) ?_ ?_)
    · intro iv hiv
      simp only [List.mem_append, or_assoc] at hiv
      rcases hiv with h | h | h | h | h
      · exact tableFor_nonneg h5 hn iv h
      · exact tableFor_nonneg h1 hn iv h
      · exact tableFor_nonneg h2 hn iv h
      · exact tableFor_nonneg h3 hn iv h
      · exact tableFor_nonneg h4 hn iv h
    · have := generate_source l6.1 l6.2 (tableFor_nonneg h6 hn') GoSource.nil
      rw [List.append_nil] at this
      exact this
  exact ⟨fun h' => (goSource_unique h h' rfl).symm, fun e => e ▸ h⟩

/-- Equality of two texts, rune by rune. -/
def sameText : List Rune → List Rune → Bool
  | [], [] => true
  | a :: l, b :: m => if a = b then sameText l m else false
  | _, _ => false

theorem sameText_eq : ∀ {l m : List Rune}, sameText l m = true → l = m
  | [], [], _ => rfl
  | [], _ :: _, h => by simp [sameText] at h
  | _ :: _, [], h => by simp [sameText] at h
  | a :: l, b :: m, h => by
    by_cases e : a = b
    · rw [sameText, if_pos e] at h; rw [e, sameText_eq h]
    · rw [sameText, if_neg e] at h; cases h

/-- The file of the repository is what the program writes for its tables, with one empty line less. -/
theorem tablesText_eq : tablesText = runesOf headLine1 ++ (runesOf "\n" ++ (runesOf "package runes\n" ++ (runesOf "\n" ++
      (runesOf headLine2 ++ (runesOf headLine3 ++ (runesOf "\n" ++
      (printEastasian ⟨doublewidth, ambiguous, combining, narrow, neutral⟩ ++ generate "emoji" emoji))))))) :=
  sameText_eq (by decide +kernel)

/-- **C99.** The file runes_tables.go of the repository declares the tables used for widths everywhere in this model. -/
theorem C99_shipped (r : List (List Rune × List (Rune × Rune))) :
    GoSource tablesText r ↔
      r = [(runesOf "combining", combining), (runesOf "doublewidth", doublewidth), (runesOf "ambiguous", ambiguous),
        (runesOf "narrow", narrow), (runesOf "neutral", neutral), (runesOf "emoji", emoji)] := by
  have l6 := letters_of "emoji" (by decide)
  have h : GoSource tablesText [(runesOf "combining", combining), (runesOf "doublewidth", doublewidth),
      (runesOf "ambiguous", ambiguous), (runesOf "narrow", narrow), (runesOf "neutral", neutral),
      (runesOf "emoji", emoji)] := by
    rw [tablesText_eq]
    refine head_source (printEastasian_source ?_ ?_)
    · decide +kernel
    · have := generate_source l6.1 l6.2 (t := emoji) (by decide +kernel) GoSource.nil
      rw [List.append_nil] at this
      exact this
  exact ⟨fun h' => (goSource_unique h h' rfl).symm, fun e => e ▸ h⟩

/-! Cases -/

example : generate "narrow" [(0x20, 0x7E), (0xA2, 0xA3), (0x27E6, 0x27ED), (0x100000, 0x10FFFD)] =
    runesOf "var narrow = table{\n\t{0x0020, 0x007E}, {0x00A2, 0x00A3}, {0x27E6, 0x27ED},\n\t{0x100000, 0x10FFFD},\n}\n" := by
  decide +kernel

example : GoSource (generate "narrow" [(0x20, 0x7E)] ++ []) [(runesOf "narrow", [(0x20, 0x7E)])] :=
  (C99_generate "narrow" [(0x20, 0x7E)] [] [] (letters_of "narrow" (by decide)).1 (by decide)
    (by decide) .nil _).mpr rfl

/-- A negative number would not be written as a number. -/
example : fmtHex04 (-5) = runesOf "-005" := by decide +kernel

end Verif.Props
