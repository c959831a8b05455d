import Verif.Props.AnyReflow

/-! # C116: the size of the result -/

namespace Verif.Props
open Verif.Go Verif.Model Verif.Model.LB Verif.Spec Verif.Spec.Ansi Verif.Spec.LB Verif.Proofs Verif.Proofs.LB

/-- The number of letters of words. -/
def letterCount (words : List (List Rune)) : Nat := (words.map List.length).sum

theorem partsText_append (a b : List Sym) : partsText (a ++ b) = partsText a ++ partsText b := by
  induction a with
  | nil => rfl
  | cons x a ih => cases x <;> simp [partsText, ih]

theorem partsText_chars (ss : List Sym) : partsText ss = (chars ss).filterMap runeOf := by
  induction ss with
  | nil => rfl
  | cons x ss ih =>
    rw [chars_cons, List.filterMap_append, ← ih]
    cases x with
    | part t =>
      show t ++ _ = _
      congr 1
      show t = (t.map Ch.rune).filterMap runeOf
      rw [List.filterMap_map]
      exact (List.filterMap_some).symm
    | gap => rfl
    | soft => rfl
    | hard => rfl
    | mark => rfl

theorem lineText_append (g : List Rune) (a b : List Sym) : lineText g (a ++ b) = lineText g a ++ lineText g b := by
  rw [lineText_chars, lineText_chars, lineText_chars, chars_append, chText_append]

theorem part_size {ss : List Sym} {t : List Rune} (h : .part t ∈ ss) (ht : t ≠ []) : 1 ≤ (partsText ss).length := by
  obtain ⟨a, b, rfl⟩ := List.append_of_mem h
  rw [partsText_append]
  have := List.length_pos_of_ne_nil ht
  simp [partsText]
  omega

theorem fills_size {g : List Rune} {hy : Option Sym → List Rune → Prop} {ss : List Sym} {shown : List (List Rune)}
    (h : Fills true g hy ss shown) (hh : ∀ s h, hy s h → h.length ≤ 1 ∧ (s ≠ some .soft → h = [])) (hf : .part [] ∉ ss)
    (hl : shown.getLast? ≠ some []) :
    shown.length ≤ (partsText ss).length ∧ shown.flatten.length + 1 ≤ (lineText g ss).length + shown.length := by
  induction h with
  | last d b t h1 h2 h3 =>
    have := (hh _ _ h3).2 (by simp)
    subst this
    simp only [List.append_nil, List.getLast?_singleton, ne_eq, Option.some.injEq] at hl
    have hp : ∃ t, .part t ∈ b := by
      by_contra hn
      apply hl
      rw [lineText_chars, (start_set h2).2.1 (fun t ht => hn ⟨t, ht⟩)]
      rfl
    obtain ⟨t, ht⟩ := hp
    have := part_size (ss := d ++ b) (t := t) (by simp [ht]) (by
      rintro rfl
      exact hf (by simp [ht]))
    refine ⟨by simpa using this, ?_⟩
    rw [lineText_append]
    simp
  | @line d b s t rest lines h1 h2 h3 h4 h5 h6 h7 h8 ih =>
    have hne : lines ≠ [] := by
      generalize s.toList ++ rest = w at h8
      cases h8 <;> simp
    rw [List.getLast?_cons_of_ne_nil hne] at hl
    obtain ⟨i1, i2⟩ := ih (fun h => hf (List.mem_append_right _ h)) hl
    obtain ⟨u, hu⟩ := h7 rfl
    have h9 := part_size hu (by
      rintro rfl
      exact hf (by simp [hu]))
    have h10 := (hh _ _ h6).1
    constructor
    · rw [partsText_append, partsText_append]
      simp only [List.length_append, List.length_cons]
      omega
    · rw [lineText_append, lineText_append]
      simp only [List.length_append, List.length_cons, List.flatten_cons]
      omega

theorem joined_letters (words : List (List Rune)) : ((joined words).filterMap runeOf).length = letterCount words := by
  have e : ∀ t : List Rune, ((t.map Ch.rune).filterMap runeOf) = t := by
    intro t
    rw [List.filterMap_map]
    exact List.filterMap_some
  induction words with
  | nil => rfl
  | cons t ts ih =>
    cases ts with
    | nil => show ((t.map Ch.rune).filterMap runeOf).length = _; rw [e]; simp [letterCount]
    | cons u us =>
      have h1 : joined (t :: u :: us) = t.map Ch.rune ++ .gap :: joined (u :: us) := rfl
      rw [h1, List.filterMap_append, e, List.length_append, List.filterMap_cons_none rfl, ih]
      simp [letterCount]

theorem joined_size (g : List Rune) (words : List (List Rune)) :
    (chText g (joined words)).length = letterCount words + (words.length - 1) * g.length := by
  have e : ∀ t : List Rune, chText g (t.map Ch.rune) = t := by
    intro t
    induction t with
    | nil => rfl
    | cons r t ih => simp [chText, ih]
  induction words with
  | nil => simp [joined, chText, letterCount]
  | cons t ts ih =>
    cases ts with
    | nil => show (chText g (t.map Ch.rune)).length = _; rw [e]; simp [letterCount]
    | cons u us =>
      have h1 : joined (t :: u :: us) = t.map Ch.rune ++ .gap :: joined (u :: us) := rfl
      rw [h1, chText_append, e, show chText g (.gap :: joined (u :: us)) = g ++ chText g (joined (u :: us)) from rfl,
        List.length_append, List.length_append, ih]
      simp only [letterCount, List.map_cons, List.sum_cons, List.length_cons, Nat.add_sub_cancel, Nat.add_mul, Nat.one_mul]
      omega

section
variable {F : Type} [Arith F] [Laws F] {rt : Runtime} {env : Env} {dict : Dictionary} {opts : List (Opt F)} {l l' : LineBreaker F}
  {seqs : List (List Rune)} {tokens : List (List Rune)} {tks : List (List Span)} {maxWidth : F} {lines : List (List Rune)}

/-- **C116.** There are no more lines than letters; and the text shown is, in all, at most the letters, the spaces between
the words, and one hyphen for each line but the last. -/
theorem C116_size [MoreLaws F] (hu : AnyUsed env dict opts l seqs) (hf : List.Forall₂ (Found rt env) tokens tks)
    (hz : Arith.toInt ((defaultOptions opts).downScale (Arith.ofInt 0 : F)) ≤ 0)
    (hl : (splitterOf env dict (defaultOptions opts)).Lossless)
    (h1 : ∀ xs ∈ tks.head?, xs.flatMap Span.text ≠ []) (h2 : ∀ xs ∈ tks.getLast?, xs.flatMap Span.text ≠ [])
    (hp : Within (defaultOptions opts).hyphenPenalty 10000) (ho : OwnPlace (defaultOptions opts))
    (hb : Arith.le (defaultOptions opts).tolerance (Arith.ofInt 50) = true)
    (h : leftAlignUniform rt env l tokens maxWidth = .ok (some lines, l')) :
    lines.length ≤ letterCount (tks.map (·.flatMap Span.text)) ∧
    ∃ shown, List.Forall₂ (Sprinkled (seqs ++ seqsOf tks)) shown lines ∧
      shown.flatten.length + 1 ≤ letterCount (tks.map (·.flatMap Span.text)) +
        (tokens.length - 1) * (spacesBetween (defaultOptions opts)).length + lines.length := by
  have htk : tks ≠ [] := by
    rintro rfl
    cases hf
    rw [align_nil] at h
    cases h
  obtain ⟨shown, s1, s2, s4⟩ := full_lines hu hf hz (fun xs hx => text_parts hl (h1 xs hx)) hp ho hb h
  have c2 := no_empty_parts hl tks
  obtain ⟨t, line, t1, t2, t3⟩ := s4 (fun p hp1 r a b hc => full_last hu hf htk (fun xs hx => text_parts hl (h1 xs hx))
    (fun xs hx => text_parts hl (h2 xs hx)) hp ho hb hp1 hc)
  obtain ⟨f1, f2⟩ := fills_size s2 (by
      rintro s t ⟨ht, _⟩
      rcases ht with rfl | ⟨rfl, _, rfl⟩
      · exact ⟨by simp, fun _ => rfl⟩
      · exact ⟨by simp, fun h => absurd rfl h⟩) c2 (by
      rw [t2]
      rintro h0
      cases h0
      rw [List.infix_nil] at t3
      rw [t3] at t1
      exact c2 t1)
  rw [partsText_chars, words_chars hl, joined_letters] at f1
  rw [lineText_chars, words_chars hl, joined_size, List.length_map, ← hf.length_eq] at f2
  rw [s1.length_eq] at f1 f2
  exact ⟨f1, shown, s1, f2⟩

end

/-- **C116**, in float64 with the default options: words are separated by one space. -/
theorem C116_default {rt : Runtime} {env : Env} {dict : Dictionary} {l l' : LineBreaker F64} {seqs : List (List Rune)}
    {tokens : List (List Rune)} {tks : List (List Span)} {maxWidth : F64} {lines : List (List Rune)}
    (hu : AnyUsed env dict ([] : List (Opt F64)) l seqs) (hf : List.Forall₂ (Found rt env) tokens tks)
    (h1 : ∀ xs ∈ tks.head?, xs.flatMap Span.text ≠ []) (h2 : ∀ xs ∈ tks.getLast?, xs.flatMap Span.text ≠ [])
    (h : leftAlignUniform rt env l tokens maxWidth = .ok (some lines, l')) :
    lines.length ≤ letterCount (tks.map (·.flatMap Span.text)) ∧
    ∃ shown, List.Forall₂ (Sprinkled (seqs ++ seqsOf tks)) shown lines ∧
      shown.flatten.length + 1 ≤ letterCount (tks.map (·.flatMap Span.text)) + (tokens.length - 1) + lines.length := by
  have e : (defaultOptions ([] : List (Opt F64))).hyphenPenalty = Arith.ofInt 300 := rfl
  have eg : (spacesBetween (defaultOptions ([] : List (Opt F64)))).length = 1 := by
    unfold spacesBetween
    rw [spaces_default]
    rfl
  have := C116_size hu hf (zero_scaled64 _) (lossless_builtin rfl rfl) h1 h2
    (by rw [e]; exact within_int 300 10000 (by decide) (by decide) (by decide)) (by
      intro k hk
      rw [e, Laws.eq_int k 300 ?_ (small 300 (by decide))]
      · simp only [List.mem_cons, List.not_mem_nil, or_false] at hk
        rcases hk with rfl | rfl | rfl | rfl <;> decide
      · simp only [List.mem_cons, List.not_mem_nil, or_false] at hk
        rcases hk with rfl | rfl | rfl | rfl <;> exact small _ (by decide)) (by
      show Arith.le (defaultOptions ([] : List (Opt F64))).tolerance _ = true
      rw [← Laws.tenths_int 50]
      exact Laws.tenths_le _ _ (by decide)) h
  rwa [eg, Nat.mul_one] at this

/-- The laws of the rationals. -/
local instance sizeLaws : Laws Rat := ratLaws (2 ^ 53) (le_refl _)

/-- **C116**, a case: five words of 22 letters, with negative widths and escape sequences. -/
theorem C116_case : ∃ l', leftAlignUniform backward Env.ascii (new Env.ascii (dictOf sampleLines) [unit, belowQ]) styledWord (Arith.ofInt 4) =
      .ok (some styledLines, l') ∧ styledLines.length ≤ 22 ∧
    ∃ shown, List.Forall₂ (Sprinkled ([] ++ seqsOf styledSpans)) shown styledLines ∧
      shown.flatten.length + 1 ≤ 22 + 4 + styledLines.length := by
  obtain ⟨l', h⟩ := lines_of (l := new Env.ascii (dictOf sampleLines) [unit, belowQ]) (rt := backward) (ts := styledWord)
    (w := Arith.ofInt 4) (ls := styledLines) (by decide +kernel)
  have := C116_size .new (styled_found backward (fun _ => rfl)) (by decide +kernel)
    (lossless_builtin rfl rfl) (by decide +kernel) (by decide +kernel) (within_int 300 10000 (by decide) (by decide) (by decide))
    (by intro k hk; simp only [List.mem_cons, List.not_mem_nil, or_false] at hk; rcases hk with rfl | rfl | rfl | rfl <;> decide +kernel)
    (by decide +kernel) h
  rw [show spacesBetween (defaultOptions [unit, belowQ]) = [0x20] by decide +kernel] at this
  exact ⟨l', h, this⟩

/-- A paragraph has as many lines as letters when the letters are set one by one. -/
example : linesOf forward (demo []) ["a", "b", "c"] 1 = .ok (some [runesOf "a", runesOf "b", runesOf "c"]) := by decide +kernel

end Verif.Props
