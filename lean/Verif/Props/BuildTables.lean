import Verif.Proofs.BuildTables
import Verif.Proofs.Width

/-! # Property C91: the program that makes the tables of widths -/

namespace Verif.Props
open Verif.Go Verif.Model Verif.Spec Verif.Proofs

/-- The table has the runes of the entries that satisfy `p`, no other rune, and as few ranges as possible. -/
def TableFor (es : List UcdEntry) (p : UcdEntry → Prop) (t : List (Rune × Rune)) : Prop :=
  SeparatedRanges t ∧ ∀ r, InRanges t r ↔ ∃ e ∈ es, p e ∧ e.lo ≤ r ∧ r ≤ e.hi

theorem tableFor_shapeup {es : List UcdEntry} (hs : SortedRanges (es.map (fun e => (e.lo, e.hi)))) (q : UcdEntry → Bool)
    {p : UcdEntry → Prop} (h : ∀ e, q e = true ↔ p e) : TableFor es p (shapeup (rangesOf q es)) := by
  have hr := rangesOf_sorted q hs
  refine ⟨shapeup_separated hr, fun r => ?_⟩
  rw [shapeup_covers hr.1 r, inRanges_rangesOf]
  simp only [h]

/-- **C91.** From a file in the format of EastAsianWidth.txt, with its entries in increasing order, each table gets
the runes of its class. -/
theorem C91_width_tables (data : List Nat) (ls : List (List Rune)) (es : List UcdEntry)
    (hu : ∀ l ∈ ls, ∀ r ∈ l, IsScalar r) (hf : FileOf data (ls.map utf8s))
    (hlen : ∀ l ∈ ls, (utf8s l).length ≤ 65534) (he : UcdFile WidthEntry ls es)
    (hs : SortedRanges (es.map (fun e => (e.lo, e.hi)))) :
    TableFor es (fun e => e.cls = runesOf "W" ∨ e.cls = runesOf "F") (eastasianTables data).dbl ∧
    TableFor es (fun e => e.cls = runesOf "A") (eastasianTables data).amb ∧
    TableFor es (fun e => e.cls = runesOf "Na") (eastasianTables data).na ∧
    TableFor es (fun e => e.cls = runesOf "N") (eastasianTables data).nu ∧
    TableFor es (fun e => runesOf "COMBINING" <:+: e.line) (eastasianTables data).cmb := by
  unfold eastasianTables
  rw [scanFold_file eastasianLine _ data ls hu hf hlen, foldl_width he]
  simp only [List.nil_append]
  exact ⟨tableFor_shapeup hs _ (fun e => by simp [isDbl]), tableFor_shapeup hs _ (fun e => by simp [isCls]),
    tableFor_shapeup hs _ (fun e => by simp [isCls]), tableFor_shapeup hs _ (fun e => by simp [isCls]),
    tableFor_shapeup hs _ (fun e => by simp [isCmb, containsText_iff])⟩

/-- **C91.** From a file in the format of emoji-data.txt, the pictographic entries in increasing order: the table gets
their runes, except for the entries below U+00FF. -/
theorem C91_emoji_table (data : List Nat) (ls : List (List Rune)) (es : List UcdEntry)
    (hu : ∀ l ∈ ls, ∀ r ∈ l, IsScalar r) (hf : FileOf data (ls.map utf8s))
    (hlen : ∀ l ∈ ls, (utf8s l).length ≤ 65534) (he : UcdFile EmojiEntry ls es)
    (hs : SortedRanges ((es.filter (fun e => containsText (runesOf "Extended_Pictographic") e.line)).map
      (fun e => (e.lo, e.hi)))) :
    TableFor es (fun e => runesOf "Extended_Pictographic" <:+: e.line ∧ 0xFF ≤ e.hi) (emojiTable data) := by
  unfold emojiTable
  rw [scanFold_file emojiLine _ data ls hu hf hlen, foldl_emoji he]
  simp only [List.nil_append]
  have e : rangesOf (fun e => containsText (runesOf "Extended_Pictographic") e.line && decide (0xFF ≤ e.hi)) es =
      rangesOf (fun e => decide (0xFF ≤ e.hi))
        (es.filter (fun e => containsText (runesOf "Extended_Pictographic") e.line)) := by
    unfold rangesOf
    rw [List.filter_filter]
    congr 2
    funext e
    rw [Bool.and_comm]
  have h := tableFor_shapeup hs (fun e => decide (0xFF ≤ e.hi)) (p := fun e => 0xFF ≤ e.hi) (by simp)
  rw [e]
  refine ⟨h.1, fun r => ?_⟩
  rw [h.2 r]
  constructor
  · rintro ⟨e, he, h1, h2⟩
    obtain ⟨he, hc⟩ := List.mem_filter.mp he
    exact ⟨e, he, ⟨(containsText_iff _ _).mp hc, h1⟩, h2⟩
  · rintro ⟨e, he, ⟨hc, h1⟩, h2⟩
    exact ⟨e, List.mem_filter.mpr ⟨he, (containsText_iff _ _).mpr hc⟩, h1, h2⟩

/-- **C91.** The lookup of package runes finds exactly these runes in such a table. -/
theorem C91_lookup (es : List UcdEntry) (p : UcdEntry → Prop) (t : List (Rune × Rune)) (h : TableFor es p t)
    (hne : t ≠ []) (r : Rune) :
    ∃ b, inTable r t = .ok b ∧ (b = true ↔ ∃ e ∈ es, p e ∧ e.lo ≤ r ∧ r ≤ e.hi) :=
  ⟨_, inTable_spec r t hne (separated_sorted h.1), by rw [decide_eq_true_eq]; exact h.2 r⟩

/-! Cases -/

/-- Two entries that touch, one of another class, a comment and an empty line. -/
def widthLines : List (List Rune) := [runesOf "# EastAsianWidth", runesOf "", runesOf "1100..115F;W  # Lo",
  runesOf "1160;W", runesOf "20A9;H # WON SIGN"]

def widthEntry1 : UcdEntry := ⟨runesOf "1100..115F;W  # Lo", 0x1100, 0x115F, runesOf "W"⟩
def widthEntry2 : UcdEntry := ⟨runesOf "1160;W", 0x1160, 0x1160, runesOf "W"⟩
def widthEntry3 : UcdEntry := ⟨runesOf "20A9;H # WON SIGN", 0x20A9, 0x20A9, runesOf "H"⟩
def widthEntries : List UcdEntry := [widthEntry1, widthEntry2, widthEntry3]

theorem hex_digit_case (d : Rune) (h : (0x30 ≤ d ∧ d ≤ 0x39) ∨ (0x41 ≤ d ∧ d ≤ 0x46)) :
    HexDigit d (if d ≤ 0x39 then d - 0x30 else d - 0x37) := by
  unfold HexDigit
  split <;> omega

theorem hex4 (a b c d : Rune) (ha : (0x30 ≤ a ∧ a ≤ 0x39) ∨ (0x41 ≤ a ∧ a ≤ 0x46))
    (hb : (0x30 ≤ b ∧ b ≤ 0x39) ∨ (0x41 ≤ b ∧ b ≤ 0x46)) (hc : (0x30 ≤ c ∧ c ≤ 0x39) ∨ (0x41 ≤ c ∧ c ≤ 0x46))
    (hd : (0x30 ≤ d ∧ d ≤ 0x39) ∨ (0x41 ≤ d ∧ d ≤ 0x46)) :
    HexNumber [a, b, c, d] (16 * (16 * (16 * (if a ≤ 0x39 then a - 0x30 else a - 0x37) +
      (if b ≤ 0x39 then b - 0x30 else b - 0x37)) + (if c ≤ 0x39 then c - 0x30 else c - 0x37)) +
      (if d ≤ 0x39 then d - 0x30 else d - 0x37)) :=
  .snoc (ds := [a, b, c]) (.snoc (ds := [a, b]) (.snoc (ds := [a]) (.one (hex_digit_case a ha)) (hex_digit_case b hb))
    (hex_digit_case c hc)) (hex_digit_case d hd)

example : UcdFile WidthEntry widthLines widthEntries := by
  refine .skip (Or.inr rfl) (.skip (Or.inl rfl) 
    (.entry (e := widthEntry1) ?_ (.entry (e := widthEntry2) ?_ (.entry (e := widthEntry3) ?_ .nil))))
  · refine ⟨runesOf "  # Lo", ⟨by decide, by decide, Or.inl ⟨runesOf "1100", runesOf "115F", ?_, ?_, by decide⟩⟩,
      by decide, by decide, ?_⟩
    · exact hex4 0x31 0x31 0x30 0x30 (by decide) (by decide) (by decide) (by decide)
    · exact hex4 0x31 0x31 0x35 0x46 (by decide) (by decide) (by decide) (by decide)
    · intro r hr; simp [runesOf] at hr; subst hr; decide
  · refine ⟨[], ⟨by decide, by decide, Or.inr ⟨runesOf "1160", ?_, rfl, by decide⟩⟩, by decide, by decide, ?_⟩
    · exact hex4 0x31 0x31 0x36 0x30 (by decide) (by decide) (by decide) (by decide)
    · intro r hr; cases hr
  · refine ⟨runesOf " # WON SIGN", ⟨by decide, by decide, Or.inr ⟨runesOf "20A9", ?_, rfl, by decide⟩⟩, by decide,
      by decide, ?_⟩
    · exact hex4 0x32 0x30 0x41 0x39 (by decide) (by decide) (by decide) (by decide)
    · intro r hr; simp [runesOf] at hr; subst hr; decide

example : SortedRanges (widthEntries.map (fun e => (e.lo, e.hi))) := by
  refine ⟨by decide, by decide⟩

example : eastasianTables ((widthLines.map utf8s).flatMap (fun l => l ++ [0x0A])) =
    ⟨[(0x1100, 0x1160)], [], [], [], []⟩ := by decide +kernel

/-- The tables in the repository cannot be made shorter by another run of shapeup. -/
example : shapeup doublewidth = doublewidth ∧ shapeup combining = combining ∧ shapeup ambiguous = ambiguous ∧
    shapeup narrow = narrow ∧ shapeup emoji = emoji := by decide +kernel

end Verif.Props
