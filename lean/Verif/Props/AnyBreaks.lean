import Verif.Props.Dropped
import Verif.Props.Choice

/-! # C67, C76: words of any runes -/

set_option linter.unusedSectionVars false

namespace Verif.Props
open Verif.Go Verif.Model Verif.Model.LB Verif.Spec Verif.Spec.Ansi Verif.Spec.LB Verif.Proofs Verif.Proofs.LB

section
variable {F : Type} [Arith F] [Laws F] {rt : Runtime} {env : Env} {dict : Dictionary} {opts : List (Opt F)}
  {text : List Rune → Int} {n : Nat} {l l' : LineBreaker F} {seqs : List (List Rune)} {tokens tokens' : List (List Rune)}
  {tks tks' : List (List Span)} {maxWidth : F} {W : Int} {lines : List (List Rune)}

/-- The texts found in words, empty ones left out. -/
def fullTexts (tks : List (List Span)) : List (List (List Rune)) :=
  tks.map (fun xs => (xs.map Span.text).filter (fun t => decide (t ≠ [])))

theorem fullTexts_full (tks : List (List Span)) : (tks.map full).map (fun t => t.map Span.text) = fullTexts tks := by
  unfold fullTexts full
  rw [List.map_map]
  congr 1
  funext xs
  simp only [Function.comp]
  induction xs with
  | nil => rfl
  | cons x xs ih =>
    by_cases h : x.text = []
    · simpa [h] using ih
    · simpa [h] using ih

theorem fullTexts_blocks {sp : Splitter} (hl : sp.Lossless) (h : fullTexts tks' = fullTexts tks) :
    parBlocks sp tks' = parBlocks sp tks := by
  rw [← full_par hl tks', ← full_par hl tks]
  refine parBlocks_texts sp _ _ ?_
  rw [fullTexts_full, fullTexts_full, h]

/-- Paragraphs of any words with the same texts. -/
theorem any_exact_all (c : AnyCall rt env dict opts text n l seqs tokens tks maxWidth W) (hpos : 0 < W) :
    let sp := splitterOf env dict (defaultOptions opts)
    let m := measureOf (defaultOptions opts) text
    (¬ Settable m W (okRatio (defaultOptions opts)) (styledSyms sp tks) ∧
      ∀ tokens' tks', List.Forall₂ (Found rt env) tokens' tks' → fullTexts tks' = fullTexts tks →
        ∃ l', leftAlignUniform rt env l tokens' maxWidth = .ok (none, l')) ∨
    (Settable m W (okRatio (defaultOptions opts)) (styledSyms sp tks) ∧
      ∃ ls, Layout (hyOf (new env dict opts)) (Acceptable m W (okRatio (defaultOptions opts))) false true (styledSyms sp tks) ls ∧
        LayoutR (hyOf (new env dict opts)) (fun f p s r => Acceptable m W (okRatio (defaultOptions opts)) f p s ∧
          Earliest (Acceptable m W (okRatio (defaultOptions opts))) (looseness F m W) (styledSyms sp tks) f p s r) false true
          (styledSyms sp tks) ls ∧
        ∀ tokens' tks', List.Forall₂ (Found rt env) tokens' tks' → fullTexts tks' = fullTexts tks →
          ∃ lines l' H, leftAlignUniform rt env l tokens' maxWidth = .ok (some lines, l') ∧
          (∀ p ∈ H ++ styledPieces sp tks', SeqsIn (seqs ++ seqsOf tks') p) ∧
          Wrapped (List.replicate n 0x20) ((H ++ styledPieces sp tks').map Piece.start) ((H ++ styledPieces sp tks').map Piece.stop)
            (styledPieces sp tks') 0 ls lines) := by
  intro sp m
  obtain ⟨H, hk, hH⟩ := any_keeps c.sane c.used
  have hsp := lossless (env := env) (dict := dict) c.sane
  have ho := hk.options
  have hu : Usual l.toOptions := ho ▸ usual_new c.sane
  have hhy : hyOf l = hyOf (new env dict opts) := by
    funext s; cases s <;> simp [hyOf, penOf, ho]
  have hok : okRatio l.toOptions = okRatio (defaultOptions opts) := by rw [ho]; rfl
  have hsy : syms (parBlocks sp tks) = styledSyms sp tks := (styledSyms_eq _ _).symm
  have htk : tks ≠ [] := by
    rintro rfl
    obtain ⟨xs, h1, _⟩ := c.first
    cases h1
  have hne : ∀ tokens' tks', List.Forall₂ (Found rt env) tokens' tks' → fullTexts tks' = fullTexts tks → tokens' ≠ [] := by
    rintro tokens' tks' h e rfl
    cases h
    exact htk (by simpa [fullTexts] using e.symm)
  have := align_exact_all (rt := rt) c.walks (hk.splits c.sane) (hk.setup c.sane) _ _ (found_all c.found)
    (hne _ _ c.found rfl) H hk.list
    maxWidth W (by rw [ho]; exact c.scaled) hpos (List.replicate n 0x20) (by rw [ho]; exact pads_new c.sane) hu.tol
    (hu.tame (hk.setup c.sane)) (by rw [hsy]; exact any_starts c) (by rw [hsy]; exact c.exact)
  rw [hsy, hok, hhy] at this
  rcases this with ⟨h1, h2⟩ | ⟨h1, segs, ls, h2, h3, h4, h5, h6, _, h7⟩
  · exact Or.inl ⟨h1, fun tokens' tks' hf he =>
      ⟨_, h2 _ _ (found_all hf) (hne _ _ hf he) (fullTexts_blocks hsp he)⟩⟩
  · refine Or.inr ⟨h1, ls, h2, h7, fun tokens' tks' hf he => ?_⟩
    have hb := fullTexts_blocks hsp he
    have hbt : ∀ x ∈ segs.flatten, BoxTag x := fun x hx => boxTag_par _ _ _ _ x (h5 x hx)
    have hst : ∀ x ∈ ls, StartsWithPart x.body := layout_bodies h2
    have hP : parPieces sp tks' = styledPieces sp tks' := (styledPieces_eq _ _).symm
    have h6' := h6 _ _ (found_all hf) (hne _ _ hf he) hb
    rw [hP] at h6'
    have hbx : boxes segs.flatten = numbered l m H.length ((styledPieces sp tks').map Piece.text) := by
      rw [h4, ← hb, boxes_parNodes, ← hP, parPieces_text]
    have hw := renderSegs_wrapped segs ls h3 hst hbt 0
      (AState.iterator (lv 0 (H ++ styledPieces sp tks'))) (by simpa using hbx) (H := H) (g := List.replicate n 0x20)
    refine ⟨_, _, H, h6', ?_, hw⟩
    intro p hp
    rcases List.mem_append.mp hp with hp | hp
    · have := hH p hp
      exact ⟨this.1.imp_right (fun h => by simp [h]), this.2.imp_right (fun h => by simp [h])⟩
    · have := styledPieces_seqs _ _ p hp
      exact ⟨this.1.imp_right (fun h => by simp [h]), this.2.imp_right (fun h => by simp [h])⟩

/-- The text of the lines, for any words with the same texts. -/
theorem any_shown {ls : List Line} {H : List Piece} {Q : Bool → List Sym → Option Sym → Prop} {hy : Sym → List Rune}
    (hs : Sane (defaultOptions opts) text n) (ht : fullTexts tks' = fullTexts tks)
    (h1 : Layout hy Q false true (styledSyms (splitterOf env dict (defaultOptions opts)) tks) ls)
    (h3 : ∀ p ∈ H ++ styledPieces (splitterOf env dict (defaultOptions opts)) tks', SeqsIn (seqs ++ seqsOf tks') p)
    (h4 : Wrapped (List.replicate n 0x20) ((H ++ styledPieces (splitterOf env dict (defaultOptions opts)) tks').map Piece.start)
      ((H ++ styledPieces (splitterOf env dict (defaultOptions opts)) tks').map Piece.stop)
      (styledPieces (splitterOf env dict (defaultOptions opts)) tks') 0 ls lines) :
    List.Forall₂ (Sprinkled (seqs ++ seqsOf tks')) (ls.map (Line.text (List.replicate n 0x20))) lines := by
  have hl := lossless (env := env) (dict := dict) hs
  refine wrapped_sprinkled h3 h4 ?_
  have e : parts (styledSyms (splitterOf env dict (defaultOptions opts)) tks) =
      (styledPieces (splitterOf env dict (defaultOptions opts)) tks').map Piece.text := by
    rw [styledSyms_eq, ← fullTexts_blocks hl ht, parts_syms, ← parPieces_text, ← styledPieces_eq]
  rw [layout_parts h1, List.drop_zero, ← e]
  exact List.prefix_rfl

/-- **C67** (partial: no word ends within a sequence, in a parameter of three digits; there is some text in the first
word). Words may hold any runes. After any history, two lists of words in which the same texts are found, those without text
left out, are both set or none is, and the lines of both are the same texts, with sequences of the words of each and of
earlier calls inserted. -/
theorem C67_any_partial (c : AnyCall rt env dict opts text n l seqs tokens tks maxWidth W) (hW : 0 < W)
    (hf : List.Forall₂ (Found rt env) tokens' tks') (ht : fullTexts tks' = fullTexts tks) :
    (∃ l₁ l₂, leftAlignUniform rt env l tokens maxWidth = .ok (none, l₁) ∧
      leftAlignUniform rt env l tokens' maxWidth = .ok (none, l₂)) ∨
    (∃ l₁ l₂ lines lines' shown, leftAlignUniform rt env l tokens maxWidth = .ok (some lines, l₁) ∧
      leftAlignUniform rt env l tokens' maxWidth = .ok (some lines', l₂) ∧
      List.Forall₂ (Sprinkled (seqs ++ seqsOf tks)) shown lines ∧
      List.Forall₂ (Sprinkled (seqs ++ seqsOf tks')) shown lines') := by
  rcases any_exact_all c hW with ⟨_, h1⟩ | ⟨_, ls, h1, _, h2⟩
  · obtain ⟨l₁, e₁⟩ := h1 _ _ c.found rfl
    obtain ⟨l₂, e₂⟩ := h1 _ _ hf ht
    exact Or.inl ⟨l₁, l₂, e₁, e₂⟩
  · obtain ⟨lines, l₁, H, e₁, h3, h4⟩ := h2 _ _ c.found rfl
    obtain ⟨lines', l₂, H', e₂, h5, h6⟩ := h2 _ _ hf ht
    exact Or.inr ⟨l₁, l₂, lines, lines', _, e₁, e₂, any_shown c.sane rfl h1 h3 h4, any_shown c.sane ht h1 h5 h6⟩

theorem sprinkled_nothing {seqs : List (List Rune)} (hs : ∀ s ∈ seqs, s = []) {t line : List Rune} (h : Sprinkled seqs t line) :
    line = t := by
  induction h with
  | nil => rfl
  | rune r _ ih => rw [ih]
  | seq s h _ ih => rw [hs s h, List.nil_append, ih]

/-- A word without escape sequences is one text. -/
theorem found_plain (rt : Runtime) (hd : AsciiDigits env) {t : List Rune} (ht : EscapeFree t) : Found rt env t [⟨[], t, []⟩] := by
  have he : (⟨0, t.length⟩ : View).elems (t ++ rt.spare t) = t := by simp [View.elems]
  have hv : (⟨0, t.length⟩ : View).Valid (t ++ rt.spare t) := by simp [View.Valid]
  obtain ⟨tok, h1, h2, h3, h4, _⟩ := C39_plain_text env hd (t ++ rt.spare t) ⟨0, t.length⟩ ⟨hv, ht.1⟩ (by rw [he]; exact ht.2)
  refine ⟨_, _, h1, ?_⟩
  rw [he] at h4
  obtain ⟨x, a, b, r⟩ := tok
  cases h2; cases h3
  rw [List.map_singleton]
  congr 2

/-- **C67** (partial, as before, and without sequences in the history). When one text is found in each word, the lines
are the ones of the texts alone, with sequences inserted. -/
theorem C67_any_alone_partial (c : AnyCall rt env dict opts text n l seqs tokens tks maxWidth W) (hW : 0 < W)
    (hh : ∀ s ∈ seqs, s = []) (plain : List (List Rune)) (hp : ∀ t ∈ plain, EscapeFree t)
    (hone : fullTexts tks = plain.map (fun t => [t])) :
    (∃ l₁ l₂, leftAlignUniform rt env l tokens maxWidth = .ok (none, l₁) ∧
      leftAlignUniform rt env l plain maxWidth = .ok (none, l₂)) ∨
    (∃ l₁ l₂ lines lines', leftAlignUniform rt env l tokens maxWidth = .ok (some lines, l₁) ∧
      leftAlignUniform rt env l plain maxWidth = .ok (some lines', l₂) ∧
      List.Forall₂ (Sprinkled (seqsOf tks)) lines' lines) := by
  let tks' : List (List Span) := plain.map (fun t => [⟨[], t, []⟩])
  have hf : List.Forall₂ (Found rt env) plain tks' := by
    simp only [tks', List.forall₂_map_right_iff, List.forall₂_same]
    exact fun t ht => found_plain rt c.digits (hp t ht)
  have hne : ∀ t ∈ plain, t ≠ [] := by
    rintro t ht rfl
    have : [([] : List Rune)] ∈ fullTexts tks := by rw [hone]; exact List.mem_map.mpr ⟨_, ht, rfl⟩
    obtain ⟨xs, _, e⟩ := List.mem_map.mp this
    have : ([] : List Rune) ∈ (xs.map Span.text).filter (fun t => decide (t ≠ [])) := by rw [e]; simp
    simp at this
  have ht : fullTexts tks' = fullTexts tks := by
    rw [hone]
    simp only [fullTexts, tks', List.map_map]
    refine List.map_congr_left (fun t ht => ?_)
    simp [hne t ht]
  have hseq : ∀ s ∈ seqs ++ seqsOf tks', s = [] := by
    intro s hs
    rcases List.mem_append.mp hs with hs | hs
    · exact hh s hs
    · simp only [seqsOf, tks', List.mem_flatMap, List.mem_map] at hs
      obtain ⟨_, ⟨t, _, rfl⟩, x, hx, hs⟩ := hs
      rw [List.mem_singleton] at hx
      subst hx
      simpa using hs
  rcases C67_any_partial c hW hf ht with h | ⟨l₁, l₂, lines, lines', shown, e₁, e₂, h1, h2⟩
  · exact Or.inl h
  · have e : lines' = shown := by
      clear e₁ e₂ h1
      induction h2 with
      | nil => rfl
      | cons a _ ih => rw [ih, sprinkled_nothing hseq a]
    subst e
    refine Or.inr ⟨l₁, l₂, lines, lines', e₁, e₂, h1.imp (fun t line h => ?_)⟩
    induction h with
    | nil => exact .nil
    | rune r _ ih => exact .rune r ih
    | seq s hs _ ih =>
      rcases List.mem_append.mp hs with hs | hs
      · rw [hh s hs]; exact ih
      · exact .seq s hs ih

/-- **C76**, for words of any runes (as in C67_any_partial). After any history, the lines are the texts found, with
sequences inserted, and each line is acceptable and starts as early as it can, given where it ends. -/
theorem C76_any (c : AnyCall rt env dict opts text n l seqs tokens tks maxWidth W) (hW : 0 < W)
    (ho : (defaultOptions opts).renderHyphens = true → OwnPenalty (defaultOptions opts))
    (h : leftAlignUniform rt env l tokens maxWidth = .ok (some lines, l')) :
    ∃ ls, List.Forall₂ (Sprinkled (seqs ++ seqsOf tks)) (ls.map (Line.text (List.replicate n 0x20))) lines ∧
      Laid (hyphenAt (defaultOptions opts)) (fun f p s rest =>
          Acceptable (measureOf (defaultOptions opts) text) W (Tolerated (defaultOptions opts)) f p s ∧
          Earliest (Acceptable (measureOf (defaultOptions opts) text) W (Tolerated (defaultOptions opts)))
            (looseness F (measureOf (defaultOptions opts) text) W)
            (styledSyms (splitterOf env dict (defaultOptions opts)) tks) f p s rest)
        true (styledSyms (splitterOf env dict (defaultOptions opts)) tks) ls := by
  rcases any_exact_all c hW with ⟨_, h1⟩ | ⟨_, ls, h1, h2, h3⟩
  · obtain ⟨_, e⟩ := h1 _ _ c.found rfl
    rw [e] at h; cases h
  · obtain ⟨lines', _, H, e, h4, h5⟩ := h3 _ _ c.found rfl
    rw [e] at h
    cases h
    exact ⟨ls, any_shown c.sane rfl h1 h4 h5, laid_of_layoutR (fun s hs => hyOf_own ho s hs) rfl h2⟩

end

/-! ## Cases -/

local instance anyBreaksLaws : Laws Rat := ratLaws (2 ^ 53) (le_refl _)

/-- The texts of `strangeWords` with other sequences. -/
def strangerWords : List (List Rune) :=
  ["a\x1b[4q\x1b[7mb\x1b[0m", "cc\x1b[1m", "\x1b[38;5;200mdd\x1b[0m\x1b[0m", "\x1b[4m\x1bxx"].map runesOf

def strangerSpans : List (List Span) :=
  [[⟨[], runesOf "a\x1b[4q", []⟩, ⟨runesOf "\x1b[7m", runesOf "b", runesOf "\x1b[0m"⟩],
    [⟨[], runesOf "cc", []⟩, ⟨runesOf "\x1b[1m", [], []⟩],
    [⟨[], runesOf "\x1b[38;5;200m", []⟩, ⟨[], runesOf "dd", runesOf "\x1b[0m"⟩, ⟨[], [], runesOf "\x1b[0m"⟩],
    [⟨runesOf "\x1b[4m", runesOf "\x1bxx", []⟩]]

theorem stranger_found : List.Forall₂ (Found forward Env.ascii) strangerWords strangerSpans :=
  .cons (found_run (by decide +kernel)) (.cons (found_run (by decide +kernel)) (.cons (found_run (by decide +kernel))
    (.cons (found_run (by decide +kernel)) .nil)))

example : ∃ l₂ lines' shown, leftAlignUniform forward Env.ascii (demo []) strangerWords (Arith.ofInt 10) = .ok (some lines', l₂) ∧
    List.Forall₂ (Sprinkled ([] ++ seqsOf strangeSpans)) shown strangeLines ∧
    List.Forall₂ (Sprinkled ([] ++ seqsOf strangerSpans)) shown lines' := by
  obtain ⟨l₀, h₀⟩ := strange_run
  rcases C67_any_partial strange_call (by decide) stranger_found (by decide +kernel) with
    ⟨_, _, h, _⟩ | ⟨_, l₂, _, lines', shown, h, h1, h2, h3⟩
  · rw [h₀] at h; cases h
  · rw [h₀] at h
    cases h
    exact ⟨l₂, lines', shown, h1, h2, h3⟩

example : linesOf forward (demo []) ["a\x1b[4q\x1b[7mb\x1b[0m", "cc\x1b[1m", "\x1b[38;5;200mdd\x1b[0m\x1b[0m", "\x1b[4m\x1bxx"] 10 =
    .ok (some (["a\x1b[4q\x1b[7mb\x1b[0m", "cc \x1b[38;5;", "200mdd\x1b[0m \x1b[4m\x1bxx"].map runesOf)) := by decide +kernel

example : ∃ ls : List Line, List.Forall₂ (Sprinkled ([] ++ seqsOf strangeSpans)) (ls.map (Line.text (List.replicate 1 0x20))) strangeLines := by
  obtain ⟨_, h⟩ := strange_run
  obtain ⟨ls, h1, _⟩ := C76_any strange_call (by decide) (fun _ => own_demo) h
  exact ⟨ls, h1⟩

/-- Words with one text each, in nested styles, never closed or closed twice. -/
def nestedWords : List (List Rune) := ["\x1b[1m\x1b[4maaaa", "\x1b[0mbbbb\x1b[1m", "\x1b[7m\x1b[1mcccccccc\x1b[0m\x1b[0m"].map runesOf

def nestedSpans : List (List Span) :=
  [[⟨runesOf "\x1b[1m", [], []⟩, ⟨runesOf "\x1b[4m", runesOf "aaaa", []⟩],
    [⟨[], [], runesOf "\x1b[0m"⟩, ⟨[], runesOf "bbbb", []⟩, ⟨runesOf "\x1b[1m", [], []⟩],
    [⟨runesOf "\x1b[7m", [], []⟩, ⟨runesOf "\x1b[1m", runesOf "cccccccc", runesOf "\x1b[0m"⟩, ⟨[], [], runesOf "\x1b[0m"⟩]]

theorem nested_call : AnyCall forward Env.ascii (dictOf sampleLines) [unit] demoText 1 (demo []) [] nestedWords nestedSpans
    (Arith.ofInt 10 : Rat) 10 :=
  ⟨.new, sane_demo, forward_walks, digits_ascii,
    .cons (found_run (by decide +kernel)) (.cons (found_run (by decide +kernel)) (.cons (found_run (by decide +kernel)) .nil)),
    ⟨_, rfl, ⟨runesOf "\x1b[4m", runesOf "aaaa", []⟩, by simp, by decide +kernel⟩, demo_scaled 10, by decide +kernel⟩

example : ∃ l₁ lines, leftAlignUniform forward Env.ascii (demo []) nestedWords (Arith.ofInt 10) = .ok (some lines, l₁) ∧
    List.Forall₂ (Sprinkled (seqsOf nestedSpans)) [runesOf "aaaa bbbb", runesOf "cccccccc"] lines := by
  obtain ⟨l₀, h₀⟩ : ∃ l', leftAlignUniform forward Env.ascii (demo []) (["aaaa", "bbbb", "cccccccc"].map runesOf) (Arith.ofInt 10 : Rat) =
    .ok (some [runesOf "aaaa bbbb", runesOf "cccccccc"], l') := linesOf_ok (by decide +kernel)
  rcases C67_any_alone_partial nested_call (by decide) (by simp) (["aaaa", "bbbb", "cccccccc"].map runesOf)
    (fun t ht => by
      have : ∀ t ∈ ["aaaa", "bbbb", "cccccccc"].map runesOf, (t.length : Int) < 2 ^ 63 ∧ (0x1B : Rune) ∉ t := by decide +kernel
      exact escapeFree_of (this t ht).1 (this t ht).2) (by decide +kernel) with
    ⟨_, _, _, h⟩ | ⟨l₁, _, lines, _, h1, h, h2⟩
  · rw [h₀] at h; cases h
  · rw [h₀] at h
    cases h
    exact ⟨l₁, lines, h1, h2⟩

end Verif.Props
