import Verif.Proofs.LBWords
import Verif.Props.StyledCases

/-! # C65, C67, C68: what styled lines show

The hypotheses are the ones of `Verif.Props.Styled`. -/

set_option linter.unusedSectionVars false

namespace Verif.Props
open Verif.Go Verif.Model Verif.Model.LB Verif.Spec Verif.Spec.Ansi Verif.Spec.LB Verif.Proofs Verif.Proofs.LB

section
variable {F : Type} [Arith F] [Laws F] {rt : Runtime} {env : Env} {dict : Dictionary} {opts : List (Opt F)}
  {text : List Rune → Int} {n : Nat} {l l' : LineBreaker F} {hist : List Piece} {words : List (List Chunk)}
  {maxWidth : F} {W : Int} {lines : List (List Rune)}

theorem no_escape (n : Nat) : (0x1B : Rune) ∉ List.replicate n (0x20 : Rune) := by
  intro h
  have := List.eq_of_mem_replicate h
  exact absurd this (by decide)

theorem layout_endings {hy : Sym → List Rune} {Q : Bool → List Sym → Option Sym → Prop} {first : Bool} {ss : List Sym}
    {ls : List Line} (h : Layout hy Q false first ss ls) (hhy : ∀ s, hy s = [] ∨ hy s = [0x2D]) :
    ∀ x ∈ ls, (0x1B : Rune) ∉ x.ending := by
  induction h with
  | blankLine h => cases h
  | lastBlank h => cases h
  | blankAfter _ h => cases h
  | last p h1 _ => simp
  | brk p s x h1 h2 h3 _ _ ih =>
    intro y hy'
    rcases List.mem_cons.mp hy' with rfl | hy'
    · rcases h3 with e | ⟨_, e⟩
      · show _ ∉ x
        rw [e]
        rcases hhy s with e | e <;> rw [e] <;> simp
      · show _ ∉ x
        rw [e]; simp
    · exact ih y hy'

theorem styled_parts (sp : Splitter) (words : List (List Chunk)) :
    parts (styledSyms sp (spansOf words)) = (styledPieces sp (spansOf words)).map Piece.text := by
  rw [styledSyms_eq, parts_syms, ← parPieces_text, ← styledPieces_eq]

theorem words_full (h : ∀ cs ∈ words, ChunkWord env cs) :
    ∀ t ∈ spansOf words, t ≠ [] ∧ ∀ x ∈ t, x.text ≠ [] := by
  intro t ht
  obtain ⟨cs, hcs, rfl⟩ := List.mem_map.mp ht
  refine ⟨by simpa using (h cs hcs).some, ?_⟩
  intro x hx
  obtain ⟨c, hc, rfl⟩ := List.mem_map.mp hx
  exact ((h cs hcs).good c hc).full

theorem wrapped_shown (hs : Sane (defaultOptions opts) text n) (hu : StyledUsed env dict opts l hist)
    (hm : ∀ cs ∈ words, ChunkWord env cs) {Q : Bool → List Sym → Option Sym → Prop} {ls : List Line}
    (h1 : Layout (hyOf (new env dict opts : LineBreaker F)) Q false true
      (styledSyms (splitterOf env dict (defaultOptions opts)) (spansOf words)) ls)
    (h2 : let P := styledPieces (splitterOf env dict (defaultOptions opts)) (spansOf words)
      Wrapped (List.replicate n 0x20) ((hist ++ P).map Piece.start) ((hist ++ P).map Piece.stop) P 0 ls lines) :
    List.Forall₂ (Visible env) lines (ls.map (Line.text (List.replicate n 0x20))) := by
  have hl := lossless (env := env) (dict := dict) hs
  refine wrapped_visible (no_escape n) ?_ h2 ?_ (layout_endings h1 hyOf_cases)
  · intro p hp
    rcases List.mem_append.mp hp with hp | hp
    · exact used_good hs hu p hp
    · exact styled_good hl (fun w hw => (hm w hw).good) p hp
  · rw [layout_parts h1, styled_parts, List.drop_zero]
    exact List.prefix_rfl

theorem styledSyms_texts {sp : Splitter} {words' : List (List Chunk)} (ht : chunkTexts words' = chunkTexts words) :
    styledSyms sp (spansOf words') = styledSyms sp (spansOf words) := by
  rw [styledSyms_eq, styledSyms_eq]
  refine congrArg syms (parBlocks_texts sp _ _ ?_)
  have h1 : ∀ ws : List (List Chunk), (spansOf ws).map (fun t => t.map Span.text) = chunkTexts ws := by
    intro ws; simp [chunkTexts, spansOf, chunkSpan, Function.comp_def]
  rw [h1, h1, ht]

/-! ## C67 -/

/-- **C67** (partial: parameters have at most two digits and texts between sequences are not empty). After any
history, two texts that differ by their sequences only are both set or none is, and without their sequences the lines
are the same. -/
theorem C67_visible_partial {words' : List (List Chunk)} (c : StyledCall rt env dict opts text n l hist words maxWidth W)
    (hW : 0 < W) (hm : ∀ cs ∈ words', ChunkWord env cs) (ht : chunkTexts words' = chunkTexts words) :
    (∃ l₁ l₂, leftAlignUniform rt env l (words.map chunkWord) maxWidth = .ok (none, l₁) ∧
      leftAlignUniform rt env l (words'.map chunkWord) maxWidth = .ok (none, l₂)) ∨
    (∃ l₁ l₂ lines lines' shown, leftAlignUniform rt env l (words.map chunkWord) maxWidth = .ok (some lines, l₁) ∧
      leftAlignUniform rt env l (words'.map chunkWord) maxWidth = .ok (some lines', l₂) ∧
      List.Forall₂ (Visible env) lines shown ∧ List.Forall₂ (Visible env) lines' shown) := by
  by_cases hne : words = []
  · subst hne
    have : words' = [] := by simpa [chunkTexts] using ht
    subst this
    exact Or.inl ⟨l, l, align_nil rt env l maxWidth, align_nil rt env l maxWidth⟩
  rcases styled_exact c hW hne with ⟨_, h1⟩ | ⟨_, ls, h1, h2⟩
  · obtain ⟨l₁, e₁⟩ := h1 words c.made rfl
    obtain ⟨l₂, e₂⟩ := h1 words' hm ht
    exact Or.inl ⟨l₁, l₂, e₁, e₂⟩
  · obtain ⟨lines, l₁, e₁, h3, _⟩ := h2 words c.made rfl
    obtain ⟨lines', l₂, e₂, h4, _⟩ := h2 words' hm ht
    refine Or.inr ⟨l₁, l₂, lines, lines', _, e₁, e₂, wrapped_shown c.sane c.used c.made h1 h3, ?_⟩
    exact wrapped_shown c.sane c.used hm ((styledSyms_texts ht).symm ▸ h1) h4

theorem wrapped_plain {g : List Rune} {opens closes : List (List Rune)} {P : List Piece} {k : Nat} {ls : List Line}
    {out : List (List Rune)} (h : Wrapped g opens closes P k ls out) (ho : ∀ x ∈ opens, x = []) (hc : ∀ x ∈ closes, x = [])
    (hp : Plain P) (ht : ls.flatMap (fun x => parts x.body) <+: (P.drop k).map Piece.text) :
    out = ls.map (Line.text g) := by
  have flat : ∀ a : List (List Rune), (∀ x ∈ a, x = []) → a.flatten = [] := by
    intro a ha
    exact List.flatten_eq_nil_iff.mpr ha
  have hd : ∀ (body : List Sym) (ps : List Piece), Plain ps → parts body <+: ps.map Piece.text → dress g body ps = lineText g body := by
    intro body
    induction body with
    | nil => intros; rfl
    | cons s body ih =>
      intro ps hps ht
      cases s with
      | part t =>
        cases hps with
        | nil => simp [parts] at ht
        | cons u hps' =>
          simp only [parts, List.map_cons, List.cons_prefix_cons] at ht
          simp only [dress, lineText, List.nil_append, List.append_nil]
          rw [ih _ hps' ht.2, ht.1]
      | gap => simp only [dress, lineText]; rw [ih ps hps ht]
      | soft => exact ih ps hps ht
      | mark => exact ih ps hps ht
      | hard => exact ih ps hps ht
  induction h with
  | nil k => rfl
  | @cons k line rest out a b ha hb hr ih =>
    rw [List.flatMap_cons] at ht
    rw [List.map_cons, ih ?_, flat a (fun x hx => ho x (ha x hx)), flat b (fun x hx => hc x (hb x hx)),
      hd _ _ (plain_drop hp k) ((List.prefix_append _ _).trans ht)]
    · simp [Line.text]
    · obtain ⟨w, hw⟩ := ht
      refine ⟨w, ?_⟩
      rw [← List.drop_drop, List.map_drop, ← hw]
      simp

theorem plain_pieces {p : Piece} {P : List Piece} (h : Plain P) (hp : p ∈ P) : p.start = [] ∧ p.stop = [] := by
  induction h with
  | nil => cases hp
  | cons t _ ih =>
    rcases List.mem_cons.mp hp with rfl | hp
    · exact ⟨rfl, rfl⟩
    · exact ih hp

/-- **C67** (partial, as before, and without styled text in the history). When each word is one text with or without
sequences, without their sequences the lines are the lines of the unstyled words. -/
theorem C67_unstyled_partial (c : StyledCall rt env dict opts text n l hist words maxWidth W) (hW : 0 < W)
    (hh : Plain hist) (hone : ∀ cs ∈ words, cs.length = 1) :
    (∃ l₁ l₂, leftAlignUniform rt env l (words.map chunkWord) maxWidth = .ok (none, l₁) ∧
      leftAlignUniform rt env l (words.map (fun cs => cs.flatMap Chunk.text)) maxWidth = .ok (none, l₂)) ∨
    (∃ l₁ l₂ lines lines', leftAlignUniform rt env l (words.map chunkWord) maxWidth = .ok (some lines, l₁) ∧
      leftAlignUniform rt env l (words.map (fun cs => cs.flatMap Chunk.text)) maxWidth = .ok (some lines', l₂) ∧
      List.Forall₂ (Visible env) lines lines') := by
  let bare : List (List Chunk) := words.map (fun cs => cs.map (fun ch => ⟨none, ch.text, none⟩))
  have ht : chunkTexts bare = chunkTexts words := by simp [bare, chunkTexts, Function.comp_def]
  have hb : bare.map chunkWord = words.map (fun cs => cs.flatMap Chunk.text) := by
    simp only [bare, List.map_map]
    refine List.map_congr_left (fun cs _ => ?_)
    simp [chunkWord, Chunk.runes, seqRunes, List.flatMap_map]
  have hm : ∀ cs ∈ bare, ChunkWord env cs := by
    intro cs hcs
    obtain ⟨cs', h1, rfl⟩ := List.mem_map.mp hcs
    have hw := c.made cs' h1
    obtain ⟨ch, rfl⟩ := List.length_eq_one_iff.mp (hone cs' h1)
    have hg := hw.good ch (by simp)
    refine ⟨by simp, ?_, trivial, ?_⟩
    · intro d hd
      simp only [List.map_cons, List.map_nil, List.mem_singleton] at hd
      subst hd
      exact ⟨hg.text, hg.full, by simp, by simp⟩
    · have h2 := hw.short
      simp only [chunkWord, List.flatMap_cons, List.flatMap_nil, List.append_nil, Chunk.runes, List.length_append,
        List.map_cons, List.map_nil, seqRunes, List.nil_append] at h2 ⊢
      omega
  by_cases hne : words = []
  · subst hne
    exact Or.inl ⟨l, l, align_nil rt env l maxWidth, align_nil rt env l maxWidth⟩
  rcases styled_exact c hW hne with ⟨_, h1⟩ | ⟨_, ls, h1, h2⟩
  · obtain ⟨l₁, e₁⟩ := h1 words c.made rfl
    obtain ⟨l₂, e₂⟩ := h1 bare hm ht
    rw [hb] at e₂
    exact Or.inl ⟨l₁, l₂, e₁, e₂⟩
  · obtain ⟨lines, l₁, e₁, h3, _⟩ := h2 words c.made rfl
    obtain ⟨lines', l₂, e₂, h4, _⟩ := h2 bare hm ht
    rw [hb] at e₂
    refine Or.inr ⟨l₁, l₂, lines, lines', e₁, e₂, ?_⟩
    have h5 := wrapped_shown c.sane c.used c.made h1 h3
    have hp : Plain (styledPieces (splitterOf env dict (defaultOptions opts)) (spansOf bare)) := by
      unfold styledPieces
      have gen : ∀ tks : List (List Span), (∀ t ∈ tks, ∀ x ∈ t, x.start = [] ∧ x.stop = []) →
          Plain (tks.flatMap (fun t => t.flatMap (fun x => dressParts x.start x.stop
            (parts (tokenSyms (splitterOf env dict (defaultOptions opts)) x.text))))) := by
        intro tks
        induction tks with
        | nil => intro _; exact .nil
        | cons t tks ih =>
          intro h
          exact Plain.append (unstyled_plain t (h t (by simp))) (ih (fun u hu => h u (by simp [hu])))
      refine gen _ ?_
      intro t ht x hx
      obtain ⟨cs, hcs, rfl⟩ := List.mem_map.mp ht
      obtain ⟨ch, hch, rfl⟩ := List.mem_map.mp hx
      obtain ⟨cs', h1, rfl⟩ := List.mem_map.mp hcs
      obtain ⟨ch', h2, rfl⟩ := List.mem_map.mp hch
      exact ⟨rfl, rfl⟩
    have hall : ∀ p ∈ hist ++ styledPieces (splitterOf env dict (defaultOptions opts)) (spansOf bare), p.start = [] ∧ p.stop = [] := by
      intro p hp'
      rcases List.mem_append.mp hp' with hp' | hp'
      · exact plain_pieces hh hp'
      · exact plain_pieces hp hp'
    have h6 := wrapped_plain h4 (by
        intro x hx; obtain ⟨p, hp', rfl⟩ := List.mem_map.mp hx; exact (hall p hp').1) (by
        intro x hx; obtain ⟨p, hp', rfl⟩ := List.mem_map.mp hx; exact (hall p hp').2) hp (by
        rw [layout_parts h1, ← styledSyms_texts ht, styled_parts, List.drop_zero]
        exact List.prefix_rfl)
    rw [h6]
    exact h5

/-! ## C68 -/

theorem spans_chars {sp : Splitter} (hl : sp.Lossless) (t : List Span) (h : ∀ x ∈ t, x.text ≠ []) :
    chars (spansSyms sp t) = (t.flatMap Span.text).map Ch.rune := by
  induction t with
  | nil => rfl
  | cons x t ih =>
    have : spansSyms sp (x :: t) = tokenSyms sp x.text ++ spansSyms sp t := rfl
    rw [this, chars_append, ih (fun y hy => h y (by simp [hy])), (token_token hl x.text (h x (by simp))).2]
    simp

theorem styled_chars {sp : Splitter} (hl : sp.Lossless) (tks : List (List Span)) (h : ∀ t ∈ tks, ∀ x ∈ t, x.text ≠ []) :
    chars (styledSyms sp tks) = joined (tks.map (fun t => t.flatMap Span.text)) := by
  induction tks with
  | nil => rfl
  | cons t tks ih =>
    have ih' := ih (fun u hu => h u (by simp [hu]))
    cases tks with
    | nil => exact spans_chars hl t (h t (by simp))
    | cons u us =>
      simp only [styledSyms, List.map_cons, joined] at ih' ⊢
      rw [chars_append, chars_cons, ih', spans_chars hl t (h t (by simp))]
      rfl

/-- **C68** (partial: parameters have at most two digits and texts between sequences are not empty). After any
history, without their sequences the lines hold the text of the words, in order, neither more nor less. -/
theorem C68_text_partial (c : StyledCall rt env dict opts text n l hist words maxWidth W) (hW : 0 < W)
    (h : leftAlignUniform rt env l (words.map chunkWord) maxWidth = .ok (some lines, l')) :
    ∃ shown, List.Forall₂ (Visible env) lines shown ∧
      Reflow (List.replicate n 0x20) (fun e => e = [] ∨ e = [0x2D]) (fun _ e => e = [] ∨ e = [0x2D])
        (joined (words.map (fun cs => cs.flatMap Chunk.text))) shown := by
  rcases styled_exact c hW (styled_nil words h) with ⟨_, h1⟩ | ⟨_, ls, h1, h2⟩
  · obtain ⟨l'', h1⟩ := h1 words c.made rfl
    rw [h1] at h; cases h
  · obtain ⟨lines', l'', e, h3, _⟩ := h2 words c.made rfl
    rw [e] at h
    cases h
    have hl := lossless (env := env) (dict := dict) c.sane
    have hf := words_full c.made
    refine ⟨_, wrapped_shown c.sane c.used c.made h1 h3, ?_⟩
    have e : words.map (fun cs => cs.flatMap Chunk.text) = (spansOf words).map (fun t => t.flatMap Span.text) := by
      simp [spansOf, chunkSpan, List.flatMap_map, Function.comp_def]
    rw [e, ← styled_chars hl _ (fun t ht => (hf t ht).2)]
    have hc := styled_chain hl _ hf
    exact layout_reflow h1 _ (Or.inl rfl) (fun s _ _ _ => hyOf_cases s) (fun _ _ s _ _ _ => hyOf_cases s) hc.1 hc.2

theorem clean_displays (c : StyledCall rt env dict opts text n l [] words maxWidth W)
    (hc : openAfter [] ((spansOf words).flatten.map Span.piece) = []) {hy : Sym → List Rune} {ls : List Line}
    (hy1 : HyphenText (defaultOptions opts) hy) {Q : Bool → List Sym → Option Sym → Prop}
    (h1 : Layout hy Q false true (styledSyms (splitterOf env dict (defaultOptions opts)) (spansOf words)) ls)
    (h2 : ∀ k ∈ cuts 0 ls, Clean (styledPieces (splitterOf env dict (defaultOptions opts)) (spansOf words)) k) :
    Displays env (List.replicate n 0x20) (paraItems [] words)
      (styledLines (List.replicate n 0x20) (styledPieces (splitterOf env dict (defaultOptions opts)) (spansOf words)) 0 ls) := by
  have hl := lossless (env := env) (dict := dict) c.sane
  have hf := words_full c.made
  have hch := styled_chain hl _ hf
  rw [paraItems_syms hl [] words (fun w hw => (c.made w hw).good)]
  refine layout_displays h1 (no_escape n) hy1.short (styled_good hl (fun w hw => (c.made w hw).good)) ?_ 0 ?_ hch.1 hch.2
    (Or.inl rfl) h2
  · rw [pieces_open hl _ (fun t ht => (hf t ht).2), hc]
  · rw [styled_parts, List.drop_zero]

/-- **C68** (partial, as before, and a new line breaker). When styled runs are separated by unstyled text and all closed,
each line, taken alone, shows its part of the text in the styles of the whole text, and leaves no style in force. -/
theorem C68_separated_partial (c : StyledCall rt env dict opts text n l [] words maxWidth W) (hW : 0 < W)
    (hs : Separated ((spansOf words).flatten.map Span.piece))
    (hc : openAfter [] ((spansOf words).flatten.map Span.piece) = [])
    (h : leftAlignUniform rt env l (words.map chunkWord) maxWidth = .ok (some lines, l')) :
    Displays env (List.replicate n 0x20) (paraItems [] words) lines := by
  obtain ⟨hy, ls, h1, h2, h3⟩ := C65_lines_partial c hW h
  have hcl : ∀ k ∈ cuts 0 ls, Clean (styledPieces (splitterOf env dict (defaultOptions opts)) (spansOf words)) k := by
    have hl := lossless (env := env) (dict := dict) c.sane
    have hP := styled_separated hl (fun x hx => by
      obtain ⟨t, ht, hx⟩ := List.mem_flatten.mp hx
      exact (words_full c.made t ht).2 x hx) hs
    intro k hk
    have hb := cuts_bounds (layout_bodies h2) k hk
    refine separated_clean hP k hb.1 ?_
    rw [layout_parts h2, styled_parts, List.length_map, Nat.zero_add] at hb
    exact hb.2
  rw [h3 hcl]
  exact clean_displays c hc h1 h2 hcl

theorem alone_clean (c : StyledCall rt env dict opts text n l [] words maxWidth W)
    (ha : ∀ cs ∈ words, StyledAlone (splitterOf env dict (defaultOptions opts)) cs) {hy : Sym → List Rune} {ls : List Line}
    {Q : Bool → List Sym → Option Sym → Prop}
    (h1 : Layout hy Q false true (styledSyms (splitterOf env dict (defaultOptions opts)) (spansOf words)) ls) :
    ∀ k ∈ cuts 0 ls, Clean (styledPieces (splitterOf env dict (defaultOptions opts)) (spansOf words)) k := by
  intro k hk
  obtain ⟨q, r, e, rfl, hr⟩ := cuts_split h1 0 k hk
  rw [Nat.zero_add]
  refine .out (words_split (lossless (env := env) (dict := dict) c.sane) (spansOf words)
    (fun t ht => (words_full c.made t ht).2) ?_ q r e hr)
  intro t ht
  obtain ⟨cs, hcs, rfl⟩ := List.mem_map.mp ht
  rcases ha cs hcs with ⟨h1, h2⟩ | h1
  · refine Or.inl ⟨h1, ?_⟩
    intro x hx
    obtain ⟨ch, hch, rfl⟩ := List.mem_map.mp hx
    exact h2 ch hch
  · refine Or.inr ?_
    intro x hx
    obtain ⟨ch, hch, rfl⟩ := List.mem_map.mp hx
    simp [chunkSpan, h1 ch hch, seqRunes]

theorem alone_closed (sp : Splitter) (ha : ∀ cs ∈ words, StyledAlone sp cs) :
    Balanced ((spansOf words).flatten.map Span.piece) := by
  induction words with
  | nil => exact ⟨rfl, rfl⟩
  | cons cs words ih =>
    have e : (spansOf (cs :: words)).flatten.map Span.piece =
        (cs.map chunkSpan).map Span.piece ++ (spansOf words).flatten.map Span.piece := by
      simp [spansOf]
    rw [e]
    refine balanced_append ?_ (ih (fun u hu => ha u (by simp [hu])))
    rcases ha cs (by simp) with ⟨h1, _⟩ | h1
    · exact h1
    · refine balanced_plain ?_
      clear ha e
      induction cs with
      | nil => exact .nil
      | cons ch cs ih =>
        have e : (chunkSpan ch).piece = ⟨ch.text, [], []⟩ := by
          simp [Span.piece, chunkSpan, h1 ch (by simp), seqRunes]
        rw [List.map_cons, List.map_cons, e]
        exact .cons _ (ih (fun y hy => h1 y (by simp [hy])))

/-- **C65** (partial, as before). When words are styled one by one and styled words are not divided, each line
ends outside of styled runs, even if styled words follow each other. -/
theorem C65_words_partial (c : StyledCall rt env dict opts text n l [] words maxWidth W) (hW : 0 < W)
    (ha : ∀ cs ∈ words, StyledAlone (splitterOf env dict (defaultOptions opts)) cs)
    (h : leftAlignUniform rt env l (words.map chunkWord) maxWidth = .ok (some lines, l')) :
    let sp := splitterOf env dict (defaultOptions opts)
    let P := styledPieces sp (spansOf words)
    ∃ hy ls, HyphenText (defaultOptions opts) hy ∧
      Layout hy (Acceptable (measureOf (defaultOptions opts) text) W (Tolerated (defaultOptions opts))) false true
        (styledSyms sp (spansOf words)) ls ∧
      lines = styledLines (List.replicate n 0x20) P 0 ls ∧ ∀ k ∈ cuts 0 ls, Balanced (P.take k) := by
  intro sp P
  obtain ⟨hy, ls, h1, h2, h3⟩ := C65_lines_partial c hW h
  refine ⟨hy, ls, h1, h2, h3 (alone_clean c ha h2), ?_⟩
  intro k hk
  obtain ⟨q, r, e, rfl, hr⟩ := cuts_split h2 0 k hk
  rw [Nat.zero_add]
  refine words_split (lossless (env := env) (dict := dict) c.sane) (spansOf words)
    (fun t ht => (words_full c.made t ht).2) ?_ q r e hr
  intro t ht
  obtain ⟨cs, hcs, rfl⟩ := List.mem_map.mp ht
  rcases ha cs hcs with ⟨h1, h2⟩ | h1
  · refine Or.inl ⟨h1, ?_⟩
    intro x hx
    obtain ⟨ch, hch, rfl⟩ := List.mem_map.mp hx
    exact h2 ch hch
  · refine Or.inr ?_
    intro x hx
    obtain ⟨ch, hch, rfl⟩ := List.mem_map.mp hx
    simp [chunkSpan, h1 ch hch, seqRunes]

/-- **C68** (partial, as before). When words are styled one by one and styled words are not divided. -/
theorem C68_words_partial (c : StyledCall rt env dict opts text n l [] words maxWidth W) (hW : 0 < W)
    (ha : ∀ cs ∈ words, StyledAlone (splitterOf env dict (defaultOptions opts)) cs)
    (h : leftAlignUniform rt env l (words.map chunkWord) maxWidth = .ok (some lines, l')) :
    Displays env (List.replicate n 0x20) (paraItems [] words) lines := by
  obtain ⟨hy, ls, h1, h2, h3⟩ := C65_lines_partial c hW h
  have hcl := alone_clean c ha h2
  rw [h3 hcl]
  exact clean_displays c (alone_closed _ ha).1 h1 h2 hcl

end

/-! ## Cases -/

local instance displayLaws : Laws Rat := ratLaws (2 ^ 53) (le_refl _)

theorem styled_closed : openAfter [] ((spansOf styledWords).flatten.map Span.piece) = [] := by decide +kernel

/-- The lines of `styledLinesDemo` show the text in its styles. -/
example : Displays Env.ascii [0x20] (paraItems [] styledWords) styledLinesDemo := by
  obtain ⟨l', h⟩ := styled_run
  exact C68_separated_partial (styled_call forward_walks) (by decide) styled_separate styled_closed h

/-- Its contents: the second word and the space after it are bold. -/
example : paraItems [] styledWords = items [] (runesOf "x,") ++ [.gap []] ++ items [bold.runes] (runesOf "aabbdcc") ++
    [.gap [bold.runes]] ++ items [bold.runes] (runesOf "yyyy") ++ [.gap []] ++ items [] (runesOf "zz") := rfl

/-- Without their sequences, they are the lines of the unstyled words. -/
example : List.Forall₂ (Visible Env.ascii) styledLinesDemo (["x,", "aa-", "bbdcc", "yyyy", "zz"].map runesOf) := by
  obtain ⟨l', h⟩ := styled_run
  have e : styledWords.map (fun cs => cs.flatMap Chunk.text) = ["x,", "aabbdcc", "yyyy", "zz"].map runesOf := by decide +kernel
  have h2 : ∃ l'', leftAlignUniform forward Env.ascii (demo []) (["x,", "aabbdcc", "yyyy", "zz"].map runesOf)
      (Arith.ofInt 5 : Rat) = .ok (some (["x,", "aa-", "bbdcc", "yyyy", "zz"].map runesOf), l'') := linesOf_ok (by decide +kernel)
  obtain ⟨l'', h2⟩ := h2
  rcases C67_unstyled_partial (styled_call forward_walks) (by decide) .nil (by decide) with
    ⟨_, _, h3, _⟩ | ⟨_, _, _, _, h3, h4, h5⟩
  · rw [h3] at h; cases h
  · rw [h3] at h
    rw [e, h2] at h4
    cases h
    cases h4
    exact h5

/-- Styled words that follow each other. -/
def aloneWords : List (List Chunk) :=
  [[boldChunk true true "aaaa"], [boldChunk true true "bbb"], [boldChunk false false "aabbdcc"], [boldChunk true true "c"]]

theorem aloneWords_made : ∀ cs ∈ aloneWords, ChunkWord Env.ascii cs := by
  intro cs h
  simp only [aloneWords, List.mem_cons, List.not_mem_nil, or_false] at h
  rcases h with rfl | rfl | rfl | rfl <;> exact boldWord_made _ _ _ (by decide) (by decide) (by decide +kernel)

theorem alone_call {rt : Runtime} (hw : Walks rt) : StyledCall rt Env.ascii (dictOf sampleLines) [unit] demoText 1 (demo []) []
    aloneWords (Arith.ofInt 5 : Rat) 5 :=
  ⟨.new, sane_demo, hw, digits_ascii, aloneWords_made, demo_scaled 5, by decide +kernel⟩

theorem alone_words : ∀ cs ∈ aloneWords,
    StyledAlone (splitterOf Env.ascii (dictOf sampleLines) (defaultOptions [unit])) cs := by
  intro cs h
  simp only [aloneWords, List.mem_cons, List.not_mem_nil, or_false] at h
  rcases h with rfl | rfl | rfl | rfl
  · exact Or.inl ⟨⟨by decide, by decide⟩, by simp only [List.mem_singleton]; rintro c rfl; decide +kernel⟩
  · exact Or.inl ⟨⟨by decide, by decide⟩, by simp only [List.mem_singleton]; rintro c rfl; decide +kernel⟩
  · refine Or.inr ?_
    simp only [List.mem_singleton]
    rintro c rfl
    exact ⟨rfl, rfl⟩
  · exact Or.inl ⟨⟨by decide, by decide⟩, by simp only [List.mem_singleton]; rintro c rfl; decide +kernel⟩

theorem alone_run : ∃ l', leftAlignUniform forward Env.ascii (demo []) (aloneWords.map chunkWord) (Arith.ofInt 5 : Rat) =
    .ok (some (["\x1b[1maaaa\x1b[0m", "\x1b[1mbbb\x1b[0m", "aabb-", "dcc \x1b[1mc\x1b[0m"].map runesOf), l') := by
  have e : aloneWords.map chunkWord = ["\x1b[1maaaa\x1b[0m", "\x1b[1mbbb\x1b[0m", "aabbdcc", "\x1b[1mc\x1b[0m"].map runesOf := by
    decide +kernel
  rw [e]
  exact linesOf_ok (by decide +kernel)

example : Displays Env.ascii [0x20] (paraItems [] aloneWords)
    (["\x1b[1maaaa\x1b[0m", "\x1b[1mbbb\x1b[0m", "aabb-", "dcc \x1b[1mc\x1b[0m"].map runesOf) := by
  obtain ⟨l', h⟩ := alone_run
  exact C68_words_partial (alone_call forward_walks) (by decide) alone_words h

/-! ## Failures -/

/-- ESC[4m. -/
def underline : CtlSeq := ⟨[0x34], [], 0x6D⟩

theorem underline_good : underline.WellFormed Env.ascii ∧ underline.Starts := by
  refine ⟨⟨by decide, by decide, by decide, by simp [IsSep, underline]⟩, Or.inr (Or.inr ⟨rfl, ?_⟩)⟩
  simp [CtlSeq.ZeroArg, underline]

/-- A bold word, then two underlined words. -/
def adjacentWords : List (List Chunk) :=
  [[boldChunk true true "aaaa"], [⟨some underline, runesOf "bbbb", none⟩], [⟨none, runesOf "cccc", some reset⟩]]

/-- **C68** fails when a run follows another at once: the last word, underlined in the text, is shown bold and underlined. -/
theorem C68_adjacent_fails :
    linesOf forward (demo []) ["\x1b[1maaaa\x1b[0m", "\x1b[4mbbbb", "cccc\x1b[0m"] 4 =
      .ok (some (["\x1b[1maaaa\x1b[0m", "\x1b[4mbbbb\x1b[0m\x1b[0m", "\x1b[1m\x1b[4mcccc\x1b[0m"].map runesOf)) ∧
    adjacentWords.map chunkWord = ["\x1b[1maaaa\x1b[0m", "\x1b[4mbbbb", "cccc\x1b[0m"].map runesOf ∧
    paraItems [] adjacentWords = items [bold.runes] (runesOf "aaaa") ++ [.gap []] ++
      items [underline.runes] (runesOf "bbbb") ++ [.gap [underline.runes]] ++ items [underline.runes] (runesOf "cccc") ∧
    Shows Env.ascii [] (runesOf "\x1b[1m\x1b[4mcccc\x1b[0m")
      ((runesOf "cccc").map (fun r => ⟨r, [bold.runes, underline.runes]⟩)) [] := by
  refine ⟨by decide +kernel, by decide +kernel, rfl, ?_⟩
  have e : runesOf "\x1b[1m\x1b[4mcccc\x1b[0m" = bold.runes ++ (underline.runes ++ (runesOf "cccc" ++ (reset.runes ++ []))) := by
    decide +kernel
  rw [e]
  refine .start bold_good.1 bold_good.2.2 (.start underline_good.1 underline_good.2 ?_)
  have h := (shows_text (env := Env.ascii) [bold.runes, underline.runes] (runesOf "cccc") (by decide)).append
    (Shows.stop reset_good.1 reset_good.2.2 (.nil []))
  rw [List.append_nil] at h
  exact h

/-- **C68** fails for an unclosed run: its lines leave the style in force. -/
theorem C68_unclosed_fails :
    linesOf forward (demo []) ["xxxx", "\x1b[1maaaa", "bbbb"] 4 =
      .ok (some (["xxxx", "\x1b[1maaaa", "\x1b[1mbbbb"].map runesOf)) ∧
    Shows Env.ascii [] (runesOf "\x1b[1maaaa") ((runesOf "aaaa").map (fun r => ⟨r, [bold.runes]⟩)) [bold.runes] := by
  refine ⟨by decide +kernel, ?_⟩
  have e : runesOf "\x1b[1maaaa" = bold.runes ++ runesOf "aaaa" := by decide +kernel
  rw [e]
  exact .start bold_good.1 bold_good.2.2 (shows_text _ _ (by decide))

/-- **C68** fails on a line breaker already used: a word without style is shown in bold. -/
theorem C68_history_fails :
    secondLines forward (demo []) ["xxxx", "yyyy"] ["xxxx", "\x1b[1maaaa", "bbbb", "cccc\x1b[0m", "dddd"] 4 =
      .ok (some (["xxxx", "\x1b[1maaaa", "bbbb", "cccc\x1b[0m\x1b[0m", "\x1b[1mdddd\x1b[0m"].map runesOf)) ∧
    Shows Env.ascii [] (runesOf "\x1b[1mdddd\x1b[0m") ((runesOf "dddd").map (fun r => ⟨r, [bold.runes]⟩)) [] := by
  refine ⟨by decide +kernel, ?_⟩
  have e : runesOf "\x1b[1mdddd\x1b[0m" = bold.runes ++ (runesOf "dddd" ++ (reset.runes ++ [])) := by decide +kernel
  rw [e]
  refine .start bold_good.1 bold_good.2.2 ?_
  have h := (shows_text (env := Env.ascii) [bold.runes] (runesOf "dddd") (by decide)).append
    (Shows.stop reset_good.1 reset_good.2.2 (.nil []))
  rw [List.append_nil] at h
  exact h

end Verif.Props
