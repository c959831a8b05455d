import Verif.Props.AnyFit

/-! # C69, C71, C72, C95 and C96: words of one text each, with sequences -/

set_option linter.unusedSectionVars false

namespace Verif.Props
open Verif.Go Verif.Model Verif.Model.LB Verif.Spec Verif.Spec.Ansi Verif.Spec.LB Verif.Proofs Verif.Proofs.LB

section
variable {F : Type} [Arith F] [Laws F] {rt rt' : Runtime} {env : Env} {dict : Dictionary} {opts : List (Opt F)}
  {text : List Rune → Int} {n : Nat} {l l' l₂ : LineBreaker F} {seqs seqs₂ : List (List Rune)} {tokens tokens₂ : List (List Rune)}
  {tks tks₂ : List (List Span)} {maxWidth maxWidth' : F} {W W' : Int} {lines : List (List Rune)}

/-- Words of one text each have the symbols of these texts. -/
theorem alone_syms {sp : Splitter} (hl : sp.Lossless) {plain : List (List Rune)} (hone : fullTexts tks = plain.map (fun t => [t])) :
    styledSyms sp tks = paraSyms sp plain ∧ ∀ t ∈ plain, t ≠ [] := by
  have hne : ∀ t ∈ plain, t ≠ [] := by
    rintro t ht rfl
    have : [([] : List Rune)] ∈ fullTexts tks := by rw [hone]; exact List.mem_map.mpr ⟨_, ht, rfl⟩
    unfold fullTexts at this
    obtain ⟨xs, _, e⟩ := List.mem_map.mp this
    have : ([] : List Rune) ∈ (xs.map Span.text).filter (fun t => decide (t ≠ [])) := by rw [e]; simp
    simp at this
  refine ⟨?_, hne⟩
  have h1 : fullTexts (plain.map (fun t => [(⟨[], t, []⟩ : Span)])) = fullTexts tks := by
    rw [hone]
    unfold fullTexts
    rw [List.map_map]
    refine List.map_congr_left (fun t ht => ?_)
    simp [hne t ht]
  rw [styledSyms_eq, ← fullTexts_blocks hl h1, ← styledSyms_eq]
  clear h1 hone hne
  induction plain with
  | nil => rfl
  | cons t ts ih =>
    cases ts with
    | nil => simp [styledSyms, spansSyms, paraSyms]
    | cons u us =>
      simp only [List.map_cons, styledSyms, paraSyms] at ih ⊢
      rw [ih]
      simp [spansSyms]

/-- Words of one text each are set if and only if these texts are set, by a new line breaker. -/
theorem alone_set (c : AnyCall rt env dict opts text n l seqs tokens tks maxWidth W) (hW : 0 < W) (plain : List (List Rune))
    (hp : ∀ t ∈ plain, EscapeFree t) (hone : fullTexts tks = plain.map (fun t => [t])) :
    Call rt env dict opts text n (new env dict opts) plain maxWidth W ∧ plain ≠ [] ∧ (∀ t ∈ plain, t ≠ []) ∧
    ((∃ lines l', leftAlignUniform rt env l tokens maxWidth = .ok (some lines, l')) ↔
      ∃ lines l', leftAlignUniform rt env (new env dict opts) plain maxWidth = .ok (some lines, l')) := by
  obtain ⟨e, hne⟩ := alone_syms (lossless (env := env) (dict := dict) c.sane) hone
  have c' : Call rt env dict opts text n (new env dict opts) plain maxWidth W :=
    ⟨.new, c.sane, c.walks, c.digits, hp, c.scaled, by rw [← e]; exact c.exact⟩
  have h0 : plain ≠ [] := by
    rintro rfl
    obtain ⟨xs, h1, _⟩ := c.first
    cases tks with
    | nil => cases h1
    | cons y ys => simp [fullTexts] at hone
  have hf : plain.head? ≠ some [] := by
    obtain ⟨t, ts, rfl⟩ := List.exists_cons_of_ne_nil h0
    simpa using hne t (by simp)
  refine ⟨c', h0, hne, ?_⟩
  rw [(C52_any c hW).1, (C52_set_iff c' hW h0 hf).1, e]

/-- **C69** (as `C69_words_fit_partial`), for words of one text each, with any sequences, after any history. -/
theorem C69_any_partial (c : AnyCall rt env dict opts text n l seqs tokens tks maxWidth W) (hW : 0 < W)
    (plain : List (List Rune)) (hp : ∀ t ∈ plain, EscapeFree t) (hone : fullTexts tks = plain.map (fun t => [t]))
    (wd : Rune → Int) (hwd : SumOf text plain wd) (τ B : Int)
    (hτ : Arith.le (Arith.tenths τ) (defaultOptions opts).tolerance = true) (hB : 10 * B ≤ 6 * τ) (hn : W ≤ 1000 * τ)
    (hfit : ∀ w ∈ plain, text w ≤ W) (hshort : ∀ w ∈ plain.tail, text w + text [0x20] ≤ B + 1)
    (hplain : ∀ w ∈ plain.tail, PlainWord env w) :
    ∃ lines l', leftAlignUniform rt env l tokens maxWidth = .ok (some lines, l') := by
  obtain ⟨c', h0, hne, h⟩ := alone_set c hW plain hp hone
  exact h.mpr (C69_words_fit_partial c' hW h0 hne wd hwd τ B hτ hB hn hfit hshort hplain)

/-- **C69.** Words of any runes, after any history: with a part that may not be cut and is wider than the lines, the result is
ErrCannotBeSet. -/
theorem C69_too_wide_any (c : AnyCall rt env dict opts text n l seqs tokens tks maxWidth W) (hW : 0 < W) (p : List Rune)
    (hp : .part p ∈ styledSyms (splitterOf env dict (defaultOptions opts)) tks) (hwide : W < text p) :
    ∃ l', leftAlignUniform rt env l tokens maxWidth = .ok (none, l') := by
  refine (C52_any c hW).2.mpr (too_wide (fun t => c.sane.nonneg t) (c.sane.nonneg _) ?_ hp hwide)
  have := c.sane.nonneg [0x2D]
  unfold measureOf
  split <;> first | exact this | exact le_refl _

/-- **C71** (as `C71_word_break_partial`), for words of one text each, with any sequences, after any histories. -/
theorem C71_any_partial (c : AnyCall rt env dict (opts ++ [.wordBreak false]) text n l seqs tokens tks maxWidth W)
    (c' : AnyCall rt' env dict (opts ++ [.wordBreak true]) text n l₂ seqs₂ tokens₂ tks₂ maxWidth W) (hW : 0 < W)
    (plain : List (List Rune)) (hp : ∀ t ∈ plain, EscapeFree t) (hone : fullTexts tks = plain.map (fun t => [t]))
    (hone₂ : fullTexts tks₂ = plain.map (fun t => [t])) (wd : Rune → Int) (hwd : SumOf text plain wd)
    (hhy : ∀ w ∈ plain, ∀ p ∈ (splitterOf env dict (defaultOptions opts)).marks w, ∀ r ∈ p.head?, isHyphenRune r = false)
    (h : ∃ lines l', leftAlignUniform rt env l tokens maxWidth = .ok (some lines, l')) :
    ∃ lines l', leftAlignUniform rt' env l₂ tokens₂ maxWidth = .ok (some lines, l') := by
  obtain ⟨d, h0, hne, e⟩ := alone_set c hW plain hp hone
  obtain ⟨d', _, _, e'⟩ := alone_set c' hW plain hp hone₂
  exact e'.mpr (C71_word_break_partial d d' hW hne wd hwd hhy (e.mp h))

/-- **C72** (as `C72_whole_words_partial`), for words of one text each, with any sequences, after any histories. -/
theorem C72_any_partial (c : AnyCall rt env dict (opts ++ [.wordBreak false, .renderHyphens false]) text n l seqs tokens tks maxWidth W)
    (c' : AnyCall rt' env dict (opts ++ [.wordBreak false, .renderHyphens true]) text n l₂ seqs₂ tokens₂ tks₂ maxWidth W) (hW : 0 < W)
    (plain : List (List Rune)) (hp : ∀ t ∈ plain, EscapeFree t) (hone : fullTexts tks = plain.map (fun t => [t]))
    (hone₂ : fullTexts tks₂ = plain.map (fun t => [t])) :
    (∃ lines l', leftAlignUniform rt env l tokens maxWidth = .ok (some lines, l')) ↔
      ∃ lines l', leftAlignUniform rt' env l₂ tokens₂ maxWidth = .ok (some lines, l') := by
  obtain ⟨d, h0, hne, e⟩ := alone_set c hW plain hp hone
  obtain ⟨d', _, _, e'⟩ := alone_set c' hW plain hp hone₂
  have hf : plain.head? ≠ some [] := by
    obtain ⟨t, ts, rfl⟩ := List.exists_cons_of_ne_nil h0
    simpa using hne t (by simp)
  exact e.trans ((C72_whole_words_partial d d' hW hf).trans e'.symm)

/-- **C95** (as `C95_letters_iff_partial`), for words of one text each, with any sequences, after any history. -/
theorem C95_any_partial (c : AnyCall rt env dict opts text n l seqs tokens tks maxWidth W) (hW : 0 < W)
    (plain : List (List Rune)) (hp : ∀ t ∈ plain, EscapeFree t) (hone : fullTexts tks = plain.map (fun t => [t]))
    (hlet : ∀ w ∈ plain, OnlyLetters env w) (hpu : (defaultOptions opts).punctuator = none)
    (hr : (defaultOptions opts).wordBreak = true → (defaultOptions opts).renderHyphens = true) (τ B : Int)
    (hτ : Arith.le (Arith.tenths τ) (defaultOptions opts).tolerance = true) (hB : 10 * B ≤ 6 * τ) (hn : W ≤ 1000 * τ)
    (hshort : ∀ w ∈ plain, ∀ p ∈ piecesOf (splitterOf env dict (defaultOptions opts)) w,
      text p + text [0x20] + text [0x2D] ≤ B + 1 ∧ text [0x2D] ≤ text p) :
    (∃ lines l', leftAlignUniform rt env l tokens maxWidth = .ok (some lines, l')) ↔
      ∀ w ∈ plain, (∀ p ∈ piecesOf (splitterOf env dict (defaultOptions opts)) w, text p ≤ W) ∧
        ∀ a p q b, piecesOf (splitterOf env dict (defaultOptions opts)) w = a ++ p :: q :: b → text p + text [0x2D] ≤ W := by
  obtain ⟨d, h0, _, e⟩ := alone_set c hW plain hp hone
  exact e.trans (C95_letters_iff_partial d hW h0 hlet hpu hr τ B hτ hB hn hshort)

/-- **C96** (as `C96_wider_partial`), for words of one text each, with any sequences, after any histories. -/
theorem C96_any_partial (c : AnyCall rt env dict opts text n l seqs tokens tks maxWidth W)
    (c' : AnyCall rt' env dict opts text n l₂ seqs₂ tokens₂ tks₂ maxWidth' W') (hW : 0 < W) (hWW : W ≤ W')
    (plain : List (List Rune)) (hp : ∀ t ∈ plain, EscapeFree t) (hone : fullTexts tks = plain.map (fun t => [t]))
    (hone₂ : fullTexts tks₂ = plain.map (fun t => [t]))
    (hlet : ∀ w ∈ plain, OnlyLetters env w) (hpu : (defaultOptions opts).punctuator = none)
    (hr : (defaultOptions opts).wordBreak = true → (defaultOptions opts).renderHyphens = true) (τ B : Int)
    (hτ : Arith.le (Arith.tenths τ) (defaultOptions opts).tolerance = true) (hB : 10 * B ≤ 6 * τ) (hn : W' ≤ 1000 * τ)
    (hshort : ∀ w ∈ plain, ∀ p ∈ piecesOf (splitterOf env dict (defaultOptions opts)) w,
      text p + text [0x20] + text [0x2D] ≤ B + 1 ∧ text [0x2D] ≤ text p)
    (h : ∃ lines l', leftAlignUniform rt env l tokens maxWidth = .ok (some lines, l')) :
    ∃ lines l', leftAlignUniform rt' env l₂ tokens₂ maxWidth' = .ok (some lines, l') := by
  obtain ⟨d, _, _, e⟩ := alone_set c hW plain hp hone
  obtain ⟨d', _, _, e'⟩ := alone_set c' (by omega) plain hp hone₂
  exact e'.mpr (C96_wider_partial d d' hW hWW hlet hpu hr τ B hτ hB hn hshort (e.mp h))

end

/-! ## Cases -/

/-- The words of `pieceWords`, the first one in bold and the last one followed by a reset. -/
def boldPieces : List String := ["\x1b[1maabbdcc\x1b[0m", "zz", "aabbdcc", "zzz\x1b[0m"]

def boldPieceSpans : List (List Span) :=
  [[⟨runesOf "\x1b[1m", runesOf "aabbdcc", runesOf "\x1b[0m"⟩], [⟨[], runesOf "zz", []⟩], [⟨[], runesOf "aabbdcc", []⟩],
    [⟨[], runesOf "zzz", runesOf "\x1b[0m"⟩]]

theorem boldPieces_found : List.Forall₂ (Found forward Env.ascii) (boldPieces.map runesOf) boldPieceSpans :=
  .cons (found_run (by decide +kernel)) (.cons (found_run (by decide +kernel)) (.cons (found_run (by decide +kernel))
    (.cons (found_run (by decide +kernel)) .nil)))

local instance wordsLaws : Laws Rat := ratLaws (2 ^ 53) (le_refl _)

theorem boldPieces_call (more : List (Opt Rat)) (hs : Sane (defaultOptions (unit :: more)) demoText 1)
    (h1 : (defaultOptions (unit :: more)).scaleFactor = 1) (W : Int)
    (hx : lineWidth (measureOf (defaultOptions (unit :: more)) demoText)
      (styledSyms (splitterOf Env.ascii (dictOf sampleLines) (defaultOptions (unit :: more))) boldPieceSpans) +
      (measureOf (defaultOptions (unit :: more)) demoText).hyphen + |W| ≤ 2 ^ 53) :
    AnyCall forward Env.ascii (dictOf sampleLines) (unit :: more) demoText 1 (demo more) [] (boldPieces.map runesOf) boldPieceSpans
      (Arith.ofInt W : Rat) W := by
  refine ⟨.new, hs, forward_walks, digits_ascii, boldPieces_found,
    ⟨_, rfl, ⟨runesOf "\x1b[1m", runesOf "aabbdcc", runesOf "\x1b[0m"⟩, by simp, by decide⟩, ?_, hx⟩
  show Arith.round (Arith.mul (Arith.ofInt W) _) = _
  rw [h1, show (1 : Rat) = Arith.ofInt 1 from rfl, Laws.mul_one, Laws.round_int]

theorem boldPieces_alone : fullTexts boldPieceSpans = (pieceWords.map runesOf).map (fun t => [t]) := by decide +kernel

theorem pieceWords_free : ∀ t ∈ pieceWords.map runesOf, EscapeFree t := by
  intro t ht
  have : ∀ t ∈ pieceWords.map runesOf, (t.length : Int) < 2 ^ 63 ∧ (0x1B : Rune) ∉ t := by decide +kernel
  exact escapeFree_of (this t ht).1 (this t ht).2

/-- **C95**, a case: the words are cut in lines of three columns. -/
theorem C95_any_case_partial : ∃ lines l', leftAlignUniform forward Env.ascii (demo []) (boldPieces.map runesOf) (Arith.ofInt 3 : Rat) =
    .ok (some lines, l') := by
  refine (C95_any_partial (boldPieces_call [] sane_demo rfl 3 (by decide +kernel)) (by decide) _ pieceWords_free boldPieces_alone
    piece_letters rfl (fun _ => rfl) 86 51 (by decide +kernel) (by decide) (by decide) piece_short).mpr (fun w hw => ?_)
  have h1 : ∀ w ∈ pieceWords.map runesOf,
    ∀ p ∈ piecesOf (splitterOf Env.ascii (dictOf sampleLines) (defaultOptions [unit])) w, demoText p ≤ 3 := by decide +kernel
  have h2 : ∀ w ∈ pieceWords.map runesOf,
    ∀ p ∈ (piecesOf (splitterOf Env.ascii (dictOf sampleLines) (defaultOptions [unit])) w).dropLast,
      demoText p + demoText [0x2D] ≤ 3 := by decide +kernel
  refine ⟨h1 w hw, fun a p q b e => h2 w hw p ?_⟩
  rw [e, List.dropLast_append_cons]
  simp

/-- **C96**, a case: they are set in wider lines. -/
theorem C96_any_case_partial : ∃ lines l', leftAlignUniform forward Env.ascii (demo []) (boldPieces.map runesOf) (Arith.ofInt 8 : Rat) =
    .ok (some lines, l') :=
  C96_any_partial (boldPieces_call [] sane_demo rfl 3 (by decide +kernel)) (boldPieces_call [] sane_demo rfl 8 (by decide +kernel))
    (by decide) (by decide) _ pieceWords_free boldPieces_alone boldPieces_alone
    piece_letters rfl (fun _ => rfl) 86 51 (by decide +kernel) (by decide) (by decide) piece_short C95_any_case_partial

/-- The words are not cut: lines of seven columns hold each of them. -/
theorem C69_any_case_partial : ∃ lines l', leftAlignUniform forward Env.ascii (demo [.wordBreak false]) (boldPieces.map runesOf)
    (Arith.ofInt 7 : Rat) = .ok (some lines, l') := by
  refine C69_any_partial (boldPieces_call [.wordBreak false] sane_whole rfl 7 (by decide +kernel)) (by decide) _ pieceWords_free
    boldPieces_alone (fun _ => 1) (sumOf_demo _) 86 51 (by decide +kernel) (by decide) (by decide) (by decide +kernel)
    (by decide +kernel) ?_
  intro w hw
  have : ∀ w ∈ (pieceWords.map runesOf).tail, w.head?.all (fun r => !punctSplitFunc Env.ascii r && !isHyphenRune r) = true := by
    decide +kernel
  exact plain_of (this w hw)

/-- Lines of six columns do not. -/
theorem C69_too_wide_any_case : ∃ l', leftAlignUniform forward Env.ascii (demo [.wordBreak false]) (boldPieces.map runesOf)
    (Arith.ofInt 6 : Rat) = .ok (none, l') :=
  C69_too_wide_any (boldPieces_call [.wordBreak false] sane_whole rfl 6 (by decide +kernel)) (by decide) (runesOf "aabbdcc")
    (by decide +kernel) (by decide +kernel)

/-- Word breaking allowed. -/
theorem C71_any_case_partial : ∃ lines l', leftAlignUniform forward Env.ascii (demo [.wordBreak true]) (boldPieces.map runesOf)
    (Arith.ofInt 7 : Rat) = .ok (some lines, l') :=
  C71_any_partial (opts := [unit]) (boldPieces_call [.wordBreak false] sane_whole rfl 7 (by decide +kernel))
    (boldPieces_call [.wordBreak true] (sane_unit _ rfl rfl rfl ⟨by decide +kernel, by decide +kernel⟩ rfl rfl) rfl 7
      (by decide +kernel))
    (by decide) _ pieceWords_free boldPieces_alone boldPieces_alone (fun _ => 1) (sumOf_demo _) (by decide +kernel)
    C69_any_case_partial

/-- Hyphens not rendered. -/
theorem C72_any_case_partial :
    (∃ lines l', leftAlignUniform forward Env.ascii (demo [.wordBreak false, .renderHyphens false]) (boldPieces.map runesOf)
      (Arith.ofInt 7 : Rat) = .ok (some lines, l')) ↔
    ∃ lines l', leftAlignUniform forward Env.ascii (demo [.wordBreak false, .renderHyphens true]) (boldPieces.map runesOf)
      (Arith.ofInt 7 : Rat) = .ok (some lines, l') :=
  C72_any_partial (opts := [unit])
    (boldPieces_call [.wordBreak false, .renderHyphens false]
      (sane_unit _ rfl rfl rfl ⟨by decide +kernel, by decide +kernel⟩ rfl rfl) rfl 7 (by decide +kernel))
    (boldPieces_call [.wordBreak false, .renderHyphens true]
      (sane_unit _ rfl rfl rfl ⟨by decide +kernel, by decide +kernel⟩ rfl rfl) rfl 7 (by decide +kernel))
    (by decide) _ pieceWords_free boldPieces_alone boldPieces_alone

end Verif.Props
