import Verif.Props.Fit
import Verif.Proofs.LBPieces

/-! # C95 and C96: paragraphs whose pieces fit -/

set_option linter.unusedSectionVars false

namespace Verif.Props
open Verif.Go Verif.Model Verif.Model.LB Verif.Spec Verif.Spec.Ansi Verif.Spec.LB Verif.Proofs Verif.Proofs.LB

section
variable {F : Type} [Arith F] [Laws F] {rt rt' : Runtime} {env : Env} {dict : Dictionary} {opts : List (Opt F)}
  {text : List Rune → Int} {n : Nat} {l l₂ : LineBreaker F} {tokens : List (List Rune)} {maxWidth maxWidth' : F} {W W' : Int}

/-- A word with neither punctuation marks nor hyphens. -/
def OnlyLetters (env : Env) (w : List Rune) : Prop := w ≠ [] ∧ ∀ r ∈ w, ¬ IsMark env r ∧ isHyphenRune r = false

theorem measure_hyphen (hs : Sane (defaultOptions opts) text n) :
    0 ≤ (measureOf (defaultOptions opts) text).hyphen ∧ (measureOf (defaultOptions opts) text).hyphen ≤ text [0x2D] := by
  have := hs.nonneg [0x2D]
  unfold measureOf
  split <;> constructor <;> first | exact this | exact le_refl _

/-- Ends of lines within the tolerance. -/
theorem call_tolerated (c : Call rt env dict opts text n l tokens maxWidth W) (τ B : Int)
    (hτ : Arith.le (Arith.tenths τ) (defaultOptions opts).tolerance = true) (hB : 10 * B ≤ 6 * τ) (hn : W ≤ 1000 * τ) :
    (∀ d, 0 < d → d ≤ B → d ≤ W → Tolerated (defaultOptions opts) d 6) ∧
      ∀ d, 0 < d → d ≤ W → Tolerated (defaultOptions opts) d 10000 := by
  have hWb : W ≤ Laws.bound F := by
    have h1 := c.exact
    have h2 := lineWidth_nonneg (setup_new (env := env) (dict := dict) c.sane)
      (paraSyms (splitterOf env dict (defaultOptions opts)) tokens)
    have h3 := (measure_hyphen c.sane).1
    have := le_abs_self W
    omega
  have hbig : (10000 : Int) ≤ Laws.bound F := _root_.le_trans (by decide) (Laws.bound_large (F := F))
  constructor
  · intro d h1 h2 h3
    exact Laws.le_trans _ _ _ (Laws.div_tenths _ _ τ (by omega) (by omega) (by decide) (by omega) (by omega)) hτ
  · intro d h1 h2
    exact Laws.le_trans _ _ _ (Laws.div_tenths _ _ τ (by omega) (by omega) (by decide) (by omega) (by omega)) hτ

/-- The parts of a word of letters only. -/
theorem letters_pieces (hs : Sane (defaultOptions opts) text n) (hp : (defaultOptions opts).punctuator = none)
    (w : List Rune) (hw : OnlyLetters env w) :
    InPieces (splitterOf env dict (defaultOptions opts)) (piecesOf (splitterOf env dict (defaultOptions opts))) w := by
  have hl := lossless (env := env) (dict := dict) hs
  obtain ⟨hne, hall⟩ := hw
  have h1 : (splitterOf env dict (defaultOptions opts)).marks w = [w] := by
    obtain ⟨parts, e, _, hu⟩ := C05_punctuator_unique_split env (fun r => punctSplitFunc env r)
      (fun r => punctSplitFunc_iff env r) w
    have := hu [w] ⟨fun p hp => ?_, fun pre a b post e => ?_⟩ (by simp)
    · show partsOf (match (defaultOptions opts).punctuator with
        | some f => f w
        | none => punctuatorBreakWord env w) = [w]
      rw [hp]
      show partsOf (punctuatorBreakWord env w) = [w]
      rw [e, ← this]
      rfl
    · rw [List.mem_singleton] at hp
      subst hp
      refine Or.inr ⟨hne, fun r hr => ?_⟩
      cases e' : punctSplitFunc env r with
      | false => exact e'
      | true => exact absurd ((punctSplitFunc_iff env r).mp e') (hall r hr).1
    · have := congrArg List.length e
      simp at this
      omega
  have h2 : (splitterOf env dict (defaultOptions opts)).hyphens w = [w] := by
    obtain ⟨parts, e, _, _, hu, _⟩ := C07_splitWord w
    have := hu [w] ⟨fun p hp => ?_, fun pre a b post e => ?_⟩ (by simp)
    · show partsOf (splitWord w) = [w]
      rw [e, ← this]
      rfl
    · rw [List.mem_singleton] at hp
      subst hp
      exact Or.inr ⟨hne, fun r hr => (hall r hr).2⟩
    · have := congrArg List.length e
      simp at this
      omega
  have h3 : ¬ (splitterOf env dict (defaultOptions opts)).isMark w = true := by
    intro h
    obtain ⟨r, rfl, hr⟩ := (C06_isPunctuation_iff env w).mp h
    exact (hall r (by simp)).1 hr
  have h4 : ¬ (splitterOf env dict (defaultOptions opts)).isHyphen w = true := by
    show ¬ isHyphen w = true
    unfold isHyphen
    match w, hne with
    | [r], _ => simpa using (hall r (by simp)).2
    | _ :: _ :: _, _ => simp
  constructor
  · unfold piecesOf
    split
    · simp
    · rename_i hb
      intro e
      have := (hl.syllables (by
        cases e : (splitterOf env dict (defaultOptions opts)).breakWords with
        | true => rfl
        | false => exact absurd (Or.inl e) hb) w hne).1
      rw [e] at this
      exact hne this.symm
  · unfold tokenSyms piecesOf
    rw [h1]
    simp only [List.flatMap_cons, List.flatMap_nil, List.append_nil]
    unfold chunkSyms
    rw [if_neg h3]
    split
    · rfl
    · rw [h2]
      simp only [List.flatMap_cons, List.flatMap_nil, List.append_nil]
      unfold wordSyms
      rw [if_neg h4]

/-! ## C95 -/

/-- **C95**, for any words divided into pieces `first :: rest` that fit (see `PiecesFit`): the paragraph is set. The
places chosen between the pieces may be any of those where lines may end. -/
theorem C95_pieces_partial (c : Call rt env dict opts text n l tokens maxWidth W) (hW : 0 < W) (h0 : tokens ≠ [])
    (hf : tokens.head? ≠ some []) (τ B : Int)
    (hτ : Arith.le (Arith.tenths τ) (defaultOptions opts).tolerance = true) (hB : 10 * B ≤ 6 * τ) (hn : W ≤ 1000 * τ)
    (first : List Sym) (rest : List (Sym × List Sym))
    (hd : paraSyms (splitterOf env dict (defaultOptions opts)) tokens = first ++ joinPieces rest)
    (hs : StartsWithPart first)
    (hfirst : lineWidth (measureOf (defaultOptions opts) text) first +
      endWidth (measureOf (defaultOptions opts) text) (nextPlace rest) ≤ W)
    (hrest : PiecesFit (measureOf (defaultOptions opts) text) W B rest) :
    ∃ lines l', leftAlignUniform rt env l tokens maxWidth = .ok (some lines, l') := by
  refine (C52_set_iff c hW h0 hf).1.mpr ?_
  obtain ⟨k1, k2⟩ := call_tolerated c τ B hτ hB hn
  rw [hd]
  exact fill_pieces k1 k2 (lineWidth_nonneg (setup_new (env := env) (dict := dict) c.sane)) (measure_hyphen c.sane).1
    rest first true hs (Or.inl rfl) hfirst hrest

/-- **C95**, for words with neither marks nor hyphens, whose pieces are not too wide compared to the tolerance (see
`C95_wide_pieces_fails`): the paragraph is set if and only if all pieces fit in the lines, with a hyphen after those
where the word would be cut. `τ` is a lower bound of the tolerance, in tenths. -/
theorem C95_letters_iff_partial (c : Call rt env dict opts text n l tokens maxWidth W) (hW : 0 < W) (h0 : tokens ≠ [])
    (hlet : ∀ w ∈ tokens, OnlyLetters env w) (hp : (defaultOptions opts).punctuator = none)
    (hr : (defaultOptions opts).wordBreak = true → (defaultOptions opts).renderHyphens = true) (τ B : Int)
    (hτ : Arith.le (Arith.tenths τ) (defaultOptions opts).tolerance = true) (hB : 10 * B ≤ 6 * τ) (hn : W ≤ 1000 * τ)
    (hshort : ∀ w ∈ tokens, ∀ p ∈ piecesOf (splitterOf env dict (defaultOptions opts)) w,
      text p + text [0x20] + text [0x2D] ≤ B + 1 ∧ text [0x2D] ≤ text p) :
    (∃ lines l', leftAlignUniform rt env l tokens maxWidth = .ok (some lines, l')) ↔
      ∀ w ∈ tokens, (∀ p ∈ piecesOf (splitterOf env dict (defaultOptions opts)) w, text p ≤ W) ∧
        ∀ a p q b, piecesOf (splitterOf env dict (defaultOptions opts)) w = a ++ p :: q :: b → text p + text [0x2D] ≤ W := by
  have hf : tokens.head? ≠ some [] := by
    obtain ⟨t, ts, rfl⟩ := List.exists_cons_of_ne_nil h0
    simpa using (hlet t (by simp)).1
  have hin : ∀ w ∈ tokens, InPieces (splitterOf env dict (defaultOptions opts))
      (piecesOf (splitterOf env dict (defaultOptions opts))) w := fun w hw => letters_pieces c.sane hp w (hlet w hw)
  obtain ⟨hh0, hh1⟩ := measure_hyphen c.sane (F := F)
  have hadd : ∀ w a p q b, piecesOf (splitterOf env dict (defaultOptions opts)) w = a ++ p :: q :: b →
      (defaultOptions opts).wordBreak = true := by
    intro w a p q b e
    cases e' : (defaultOptions opts).wordBreak with
    | true => rfl
    | false =>
      unfold piecesOf at e
      rw [if_pos (Or.inl (show (splitterOf env dict (defaultOptions opts)).breakWords = false from e'))] at e
      have := congrArg List.length e
      simp at this
      omega
  constructor
  · intro h
    have hset := (C52_set_iff c hW h0 hf).1.mp h
    intro w hw
    obtain ⟨g1, g2⟩ := part_of_pieces (hin w hw)
    have hinf := token_infix (sp := splitterOf env dict (defaultOptions opts)) tokens w hw
    constructor
    · intro p hp'
      by_contra hlt
      exact too_wide (fun t => c.sane.nonneg t) (c.sane.nonneg _) hh0 (hinf.subset (g1 p hp')) (by show W < text p; omega) hset
    · intro a p q b e
      have hb := hadd w a p q b e
      have e' : (measureOf (defaultOptions opts) text).hyphen = text [0x2D] := by
        unfold measureOf
        rw [hb]; rfl
      have := piece_hyphen (m := measureOf (defaultOptions opts) text) (fun t => c.sane.nonneg t) (c.sane.nonneg _) hh0
        (hr hb) (q := q) (by rw [e']; exact (hshort w hw q (by rw [e]; simp)).2) ((g2 a p q b e).trans hinf) hset
      rw [e'] at this
      exact this
  · intro h
    obtain ⟨w, ws, rfl⟩ := List.exists_cons_of_ne_nil h0
    obtain ⟨p, qs, e⟩ := List.exists_cons_of_ne_nil (hin w (by simp)).ne
    have hpos : ∀ w' ∈ w :: ws, ∀ p' ∈ piecesOf (splitterOf env dict (defaultOptions opts)) w', text p' ≤ W ∧
        text p' + text [0x20] + (measureOf (defaultOptions opts) text).hyphen ≤ B + 1 := by
      intro w' hw' p' hp'
      refine ⟨(h w' hw').1 p' hp', ?_⟩
      have := (hshort w' hw' p' hp').1
      omega
    have hpair : ∀ w' ∈ w :: ws, ∀ a p q b, piecesOf (splitterOf env dict (defaultOptions opts)) w' = a ++ p :: q :: b →
        text p + (measureOf (defaultOptions opts) text).hyphen ≤ W := by
      intro w' hw' a p q b e
      have := (h w' hw').2 a p q b e
      omega
    have hn' := next_wordPieces (f := piecesOf (splitterOf env dict (defaultOptions opts))) ws
      (fun x hx => (hin x (by simp [hx])).ne)
    have hws := fit_words (m := measureOf (defaultOptions opts) text) (W := W) (B := B) hh0 (c.sane.nonneg _)
      (f := piecesOf (splitterOf env dict (defaultOptions opts))) ws
      (fun x hx => (hin x (by simp [hx])).ne) (fun x hx p q b e => hr (hadd x [] p q b e))
      (fun x hx => hpos x (by simp [hx])) (fun x hx => hpair x (by simp [hx]))
    refine C95_pieces_partial c hW h0 hf τ B hτ hB hn _ _ (para_pieces ws w p qs hin e) ⟨p, [], rfl⟩ ?_ ?_
    · cases qs with
      | nil =>
        have e0 : endWidth (measureOf (defaultOptions opts) text)
            (nextPlace (wordPieces (piecesOf (splitterOf env dict (defaultOptions opts))) ws)) = 0 := by
          rcases hn' with e | e <;> rw [e] <;> rfl
        have h1 : endWidth (measureOf (defaultOptions opts) text) (nextPlace
          (([] : List (List Rune)).map (fun q => (Sym.soft, [Sym.part q])) ++
            wordPieces (piecesOf (splitterOf env dict (defaultOptions opts))) ws)) = 0 := e0
        rw [h1]
        have := (hpos w (by simp) p (by rw [e]; simp)).1
        show text p + 0 + 0 ≤ W
        omega
      | cons q qs =>
        have := hpair w (by simp) [] p q qs e
        have h1 : endWidth (measureOf (defaultOptions opts) text) (some .soft) =
            (measureOf (defaultOptions opts) text).hyphen := by
          simp only [endWidth]
          rw [if_pos (show (measureOf (defaultOptions opts) text).addHyphens = true from hr (hadd w [] p q qs e))]
        show text p + 0 + endWidth (measureOf (defaultOptions opts) text) (some .soft) ≤ W
        rw [h1]
        omega
    · refine fit_soft hh0 (c.sane.nonneg _) _ hws hn' qs (fun hq => ?_)
        (fun q hq => hpos w (by simp) q (by rw [e]; simp [hq]))
        (fun a x y b e' => hpair w (by simp) (p :: a) x y b (by rw [e, e']; rfl))
      obtain ⟨q, b, rfl⟩ := List.exists_cons_of_ne_nil hq
      exact hr (hadd w [] p q b e)

/-- **C95**, with the default options: pieces of at most 50 columns, and at least one. -/
theorem C95_default_partial (hu : Used env dict [] l) (hw : Walks rt) (hd : AsciiDigits env)
    (h : Ordinary tokens W) (hW : 0 < W) (hn : W ≤ 86000) (h0 : tokens ≠ []) (hlet : ∀ w ∈ tokens, OnlyLetters env w)
    (hshort : ∀ w ∈ tokens, ∀ p ∈ piecesOf (splitterOf env dict (defaultOptions ([] : List (Opt F)))) w,
      1 ≤ defaultText p ∧ defaultText p ≤ 50) :
    (∃ lines l', leftAlignUniform rt env l tokens (Arith.ofInt W : F) = .ok (some lines, l')) ↔
      ∀ w ∈ tokens, (∀ p ∈ piecesOf (splitterOf env dict (defaultOptions ([] : List (Opt F)))) w, defaultText p ≤ W) ∧
        ∀ a p q b, piecesOf (splitterOf env dict (defaultOptions ([] : List (Opt F)))) w = a ++ p :: q :: b →
          defaultText p + 1 ≤ W := by
  have := C95_letters_iff_partial (call_default hu hw hd h) hW h0 hlet rfl (fun _ => rfl) 86 51
    (Laws.tenths_le _ _ (by decide)) (by decide) (by omega) (fun w hw p hp => by
      have := hshort w hw p hp
      rw [defaultText_space, defaultText_hyphen]
      omega)
  rw [defaultText_hyphen] at this
  exact this

/-! ## C96 -/

/-- **C96**, for such paragraphs (see `C96_wider_fails` otherwise): a paragraph that is set is also set in wider
lines. -/
theorem C96_wider_partial (c : Call rt env dict opts text n l tokens maxWidth W)
    (c' : Call rt' env dict opts text n l₂ tokens maxWidth' W') (hW : 0 < W) (hWW : W ≤ W')
    (hlet : ∀ w ∈ tokens, OnlyLetters env w) (hp : (defaultOptions opts).punctuator = none)
    (hr : (defaultOptions opts).wordBreak = true → (defaultOptions opts).renderHyphens = true) (τ B : Int)
    (hτ : Arith.le (Arith.tenths τ) (defaultOptions opts).tolerance = true) (hB : 10 * B ≤ 6 * τ) (hn : W' ≤ 1000 * τ)
    (hshort : ∀ w ∈ tokens, ∀ p ∈ piecesOf (splitterOf env dict (defaultOptions opts)) w,
      text p + text [0x20] + text [0x2D] ≤ B + 1 ∧ text [0x2D] ≤ text p)
    (h : ∃ lines l', leftAlignUniform rt env l tokens maxWidth = .ok (some lines, l')) :
    ∃ lines l', leftAlignUniform rt' env l₂ tokens maxWidth' = .ok (some lines, l') := by
  by_cases h0 : tokens = []
  · subst h0
    obtain ⟨_, _, h⟩ := h
    rw [align_nil] at h; cases h
  have h1 := (C95_letters_iff_partial c hW h0 hlet hp hr τ B hτ hB (by omega) hshort).mp h
  refine (C95_letters_iff_partial c' (by omega) h0 hlet hp hr τ B hτ hB hn hshort).mpr (fun w hw => ?_)
  obtain ⟨g1, g2⟩ := h1 w hw
  exact ⟨fun p hp => _root_.le_trans (g1 p hp) hWW, fun a p q b e => _root_.le_trans (g2 a p q b e) hWW⟩

end

/-! ## Cases -/

local instance piecesLaws : Laws Rat := ratLaws (2 ^ 53) (le_refl _)

theorem letters_of {w : List Rune} (h : (!w.isEmpty && w.all (fun r => !punctSplitFunc Env.ascii r && !isHyphenRune r)) = true) :
    OnlyLetters Env.ascii w := by
  simp only [Bool.and_eq_true, Bool.not_eq_true', List.isEmpty_eq_false_iff, List.all_eq_true] at h
  refine ⟨h.1, fun r hr => ?_⟩
  have := h.2 r hr
  exact ⟨fun hm => by rw [(punctSplitFunc_iff Env.ascii r).mpr hm] at this; exact absurd this.1 (by simp), this.2⟩

/-- Words of the sample dictionary. -/
def pieceWords : List String := ["aabbdcc", "zz", "aabbdcc", "zzz"]

theorem piece_call (W : Int) (hW : W = 2 ∨ W = 3 ∨ W = 8) :
    Call forward Env.ascii (dictOf sampleLines) [unit] demoText 1 (demo []) (pieceWords.map runesOf) (Arith.ofInt W : Rat) W := by
  refine unit_call [] (sane_unit _ rfl rfl rfl ⟨by decide +kernel, by decide +kernel⟩ rfl rfl) rfl (by decide +kernel) ?_
  rcases hW with rfl | rfl | rfl <;> decide +kernel

theorem piece_letters : ∀ w ∈ pieceWords.map runesOf, OnlyLetters Env.ascii w := by
  intro w hw
  have : ∀ w ∈ pieceWords.map runesOf, (!w.isEmpty && w.all (fun r => !punctSplitFunc Env.ascii r && !isHyphenRune r)) = true := by
    decide +kernel
  exact letters_of (this w hw)

theorem piece_list : pieceWords.map (fun w => piecesOf (splitterOf Env.ascii (dictOf sampleLines) (defaultOptions [unit]))
    (runesOf w)) = [["aa", "bb", "dcc"], ["zz"], ["aa", "bb", "dcc"], ["zzz"]].map (List.map runesOf) := by decide +kernel

theorem piece_short : ∀ w ∈ pieceWords.map runesOf,
    ∀ p ∈ piecesOf (splitterOf Env.ascii (dictOf sampleLines) (defaultOptions [unit])) w,
      demoText p + demoText [0x20] + demoText [0x2D] ≤ 51 + 1 ∧ demoText [0x2D] ≤ demoText p := by decide +kernel

/-- The words are cut in lines of three columns. -/
example : ∃ lines l', leftAlignUniform forward Env.ascii (demo []) (pieceWords.map runesOf) (Arith.ofInt 3) = .ok (some lines, l') := by
  refine (C95_letters_iff_partial (piece_call 3 (by decide)) (by decide) (by decide) piece_letters rfl (fun _ => rfl) 86 51
    (by decide +kernel) (by decide) (by decide) piece_short).mpr (fun w hw => ?_)
  have h1 : ∀ w ∈ pieceWords.map runesOf,
    ∀ p ∈ piecesOf (splitterOf Env.ascii (dictOf sampleLines) (defaultOptions [unit])) w, demoText p ≤ 3 := by decide +kernel
  have h2 : ∀ w ∈ pieceWords.map runesOf,
    ∀ p ∈ (piecesOf (splitterOf Env.ascii (dictOf sampleLines) (defaultOptions [unit])) w).dropLast,
      demoText p + demoText [0x2D] ≤ 3 := by decide +kernel
  refine ⟨h1 w hw, fun a p q b e => h2 w hw p ?_⟩
  rw [e, List.dropLast_append_cons]
  simp

example : linesOf forward (demo []) pieceWords 3 =
    .ok (some (["aa-", "bb-", "dcc", "zz", "aa-", "bb-", "dcc", "zzz"].map runesOf)) := by decide +kernel

/-- They are not set in lines of two columns. -/
example : ¬ ∃ lines l', leftAlignUniform forward Env.ascii (demo []) (pieceWords.map runesOf) (Arith.ofInt 2) = .ok (some lines, l') := by
  rw [C95_letters_iff_partial (piece_call 2 (by decide)) (by decide) (by decide) piece_letters rfl (fun _ => rfl) 86 51
    (by decide +kernel) (by decide) (by decide) piece_short]
  intro h
  exact absurd ((h (runesOf "zzz") (by decide)).1 (runesOf "zzz") (by decide +kernel)) (by decide +kernel)

/-- They are set in wider lines. -/
example : ∃ lines l', leftAlignUniform forward Env.ascii (demo []) (pieceWords.map runesOf) (Arith.ofInt 8) = .ok (some lines, l') :=
  C96_wider_partial (piece_call 3 (by decide)) (piece_call 8 (by decide)) (by decide) (by decide) piece_letters rfl
    (fun _ => rfl) 86 51 (by decide +kernel) (by decide) (by decide) piece_short
    ⟨_, linesOf_ok (r := some (["aa-", "bb-", "dcc", "zz", "aa-", "bb-", "dcc", "zzz"].map runesOf)) (by decide +kernel)⟩

/-- With the default options. -/
example : ∃ lines l', leftAlignUniform forward Env.ascii (new Env.ascii (dictOf sampleLines) [] : LineBreaker Rat)
    (pieceWords.map runesOf) (Arith.ofInt 3) = .ok (some lines, l') := by
  have hs : ∀ w ∈ pieceWords.map runesOf,
      ∀ p ∈ piecesOf (splitterOf Env.ascii (dictOf sampleLines) (defaultOptions ([] : List (Opt Rat)))) w,
        defaultText p = (p.map (fun r => plainWidth r % 4)).sum := by
    intro w hw p hp
    refine defaultText_sum p ?_
    revert w p; decide +kernel
  have hx : defaultText (List.intercalate [0x20] (pieceWords.map runesOf)) = 22 := by
    rw [defaultText_sum _ (by decide +kernel)]; decide +kernel
  refine (C95_default_partial .new forward_walks digits_ascii
    ⟨by decide +kernel, fun t h => by
      have : ∀ t ∈ pieceWords.map runesOf, (t.length : Int) < 2 ^ 63 ∧ (0x1B : Rune) ∉ t := by decide +kernel
      exact escapeFree_of (this t h).1 (this t h).2, by rw [hx]; decide⟩
    (by decide) (by decide) (by decide +kernel) piece_letters (fun w hw p hp => ?_)).mpr (fun w hw => ⟨fun p hp => ?_, ?_⟩)
  · rw [hs w hw p hp]; revert w p; decide +kernel
  · rw [hs w hw p hp]; revert w p; decide +kernel
  · intro a p q b e
    have h2 : ∀ w ∈ pieceWords.map runesOf,
      ∀ p ∈ (piecesOf (splitterOf Env.ascii (dictOf sampleLines) (defaultOptions ([] : List (Opt Rat)))) w).dropLast,
        (p.map (fun r => plainWidth r % 4)).sum + 1 ≤ 3 := by decide +kernel
    rw [hs w hw p (by rw [e]; simp)]
    refine h2 w hw p ?_
    rw [e, List.dropLast_append_cons]
    simp

/-- Words with marks and hyphens, divided at some of the places where lines may end. -/
example : ∃ lines l', leftAlignUniform forward Env.ascii (demo []) (["(aabbdcc),", "zz-aabbdcc"].map runesOf) (Arith.ofInt 7) =
    .ok (some lines, l') := by
  refine C95_pieces_partial (unit_call (tokens := ["(aabbdcc),", "zz-aabbdcc"].map runesOf) (W := 7) []
      (sane_unit _ rfl rfl rfl ⟨by decide +kernel, by decide +kernel⟩ rfl rfl) rfl (by decide +kernel) (by decide +kernel))
    (by decide) (by decide +kernel) (by decide +kernel) 86 51 (by decide +kernel) (by decide) (by decide)
    [.part (runesOf "("), .mark, .part (runesOf "aa")]
    [(.soft, [.part (runesOf "bb"), .soft, .part (runesOf "dcc"), .part (runesOf ")"), .mark, .part (runesOf ","), .mark]),
      (.gap, [.part (runesOf "zz"), .part (runesOf "-"), .hard, .part (runesOf "aa")]),
      (.soft, [.part (runesOf "bb"), .soft, .part (runesOf "dcc")])]
    (by decide +kernel) ⟨_, _, rfl⟩ (by decide +kernel) ?_
  refine ⟨by simp, fun _ => rfl, ⟨_, _, rfl⟩, rfl, by decide +kernel, by decide +kernel, ?_⟩
  refine ⟨by simp, by simp, ⟨_, _, rfl⟩, rfl, by decide +kernel, by decide +kernel, ?_⟩
  exact ⟨by simp, fun _ => rfl, ⟨_, _, rfl⟩, rfl, by decide +kernel, by decide +kernel, trivial⟩

/-! ## Failures -/

/-- **C95** fails for wide pieces: words of 3 and 60 letters without hyphenation point, in a width of 60. -/
theorem C95_wide_pieces_fails :
    (∀ rt ∈ [forward, backward], linesOf rt (demo []) ["zzz", String.ofList (List.replicate 60 'z')] 60 = .ok none) ∧
    piecesOf (splitterOf Env.ascii (dictOf sampleLines) (defaultOptions [unit])) (List.replicate 60 0x7A) =
      [List.replicate 60 0x7A] := by
  simp only [List.mem_cons, List.not_mem_nil, or_false, forall_eq_or_imp, forall_eq]; decide +kernel

/-- **C96** fails for wide words: words of 9 and 60 letters are set in a width of 60, not in a width of 61. -/
theorem C96_wider_fails :
    linesOf forward (demo []) ["zzzzzzzzz", String.ofList (List.replicate 60 'z')] 60 =
      .ok (some [runesOf "zzzzzzzzz", List.replicate 60 0x7A]) ∧
    ∀ rt ∈ [forward, backward],
      linesOf rt (demo []) ["zzzzzzzzz", String.ofList (List.replicate 60 'z')] 61 = .ok none := by
  simp only [List.mem_cons, List.not_mem_nil, or_false, forall_eq_or_imp, forall_eq]; decide +kernel

end Verif.Props
