import Verif.Proofs.LBStyled
import Verif.Props.LinebreakCases

/-! # C64, C65, C67: styled paragraphs

A `StyledCall` is a call of LeftAlignUniform with sane options, on words made of chunks: texts with a start
sequence, a stop sequence, both or none. `hist` are the pieces of styled text of the earlier calls on the same line
breaker. The theorems hold for every walk of the map of candidates. -/

set_option linter.unusedSectionVars false

namespace Verif.Props
open Verif.Go Verif.Model Verif.Model.LB Verif.Spec Verif.Spec.Ansi Verif.Spec.LB Verif.Proofs.LB

section
variable {F : Type} [Arith F] [Laws F] {rt : Runtime} {env : Env} {dict : Dictionary} {opts : List (Opt F)}
  {text : List Rune → Int} {n : Nat} {l l' : LineBreaker F} {hist : List Piece} {words : List (List Chunk)}
  {maxWidth : F} {W : Int} {lines : List (List Rune)}

theorem hyphenText_new : HyphenText (defaultOptions opts) (hyOf (new env dict opts : LineBreaker F)) :=
  ⟨hyOf_cases, fun h s hs => hyOf_own h s hs⟩

theorem styled_nil (words : List (List Chunk)) (h : leftAlignUniform rt env l (words.map chunkWord) maxWidth = .ok (some lines, l')) :
    words ≠ [] := by
  rintro rfl
  rw [List.map_nil, align_nil] at h
  cases h

/-! ## C64 -/

/-- **C64** (partial: parameters have at most two digits and texts between sequences are not empty). After any history,
the lines hold the styled pieces of the text in order, each with its own sequences; before and after each line
there may be sequences written again. -/
theorem C64_order_partial (c : StyledCall rt env dict opts text n l hist words maxWidth W) (hW : 0 < W)
    (h : leftAlignUniform rt env l (words.map chunkWord) maxWidth = .ok (some lines, l')) :
    let sp := splitterOf env dict (defaultOptions opts)
    let P := styledPieces sp (spansOf words)
    ∃ hy ls, HyphenText (defaultOptions opts) hy ∧
      Layout hy (Acceptable (measureOf (defaultOptions opts) text) W (Tolerated (defaultOptions opts))) false true
        (styledSyms sp (spansOf words)) ls ∧
      Wrapped (List.replicate n 0x20) ((hist ++ P).map Piece.start) ((hist ++ P).map Piece.stop) P 0 ls lines := by
  intro sp P
  rcases styled_exact c hW (styled_nil words h) with ⟨_, h1⟩ | ⟨_, ls, h1, h2⟩
  · obtain ⟨l'', h1⟩ := h1 words c.made rfl
    rw [h1] at h; cases h
  · obtain ⟨lines', l'', e, h3, _⟩ := h2 words c.made rfl
    rw [e] at h
    cases h
    exact ⟨_, ls, hyphenText_new, h1, h3⟩

theorem parts_startLine (ss : List Sym) : parts (startLine ss) = parts ss := by
  induction ss with
  | nil => rfl
  | cons s ss ih => cases s <;> simp [startLine, parts, ih]

theorem layout_parts {hy : Sym → List Rune} {P : Bool → List Sym → Option Sym → Prop} {first : Bool} {ss : List Sym}
    {ls : List Line} (h : Layout hy P false first ss ls) : ls.flatMap (fun x => parts x.body) = parts ss := by
  induction h with
  | blankLine h => cases h
  | lastBlank h => cases h
  | blankAfter _ h => cases h
  | last p a b => simp
  | brk p s x a b c d _ ih =>
    rw [List.flatMap_cons, ih, parts_startLine, parts_append]
    cases s <;> simp [parts]
    exact absurd rfl (b _)

theorem dress_mem (g : List Rune) (body : List Sym) (ps : List Piece) (p : Piece) (h : p ∈ ps.take (parts body).length) :
    p.start ++ p.text ++ p.stop <:+: dress g body ps := by
  induction body generalizing ps with
  | nil => simp [parts] at h
  | cons s body ih =>
    cases s with
    | part t =>
      cases ps with
      | nil => simp at h
      | cons q ps =>
        simp only [parts, List.length_cons, List.take_succ_cons, List.mem_cons] at h
        simp only [dress]
        rcases h with rfl | h
        · exact List.infix_append' [] _ _
        · exact (ih ps h).trans (List.suffix_append _ _).isInfix
    | gap => simp only [dress]; exact (ih ps h).trans (List.suffix_append _ _).isInfix
    | soft => exact ih ps h
    | mark => exact ih ps h
    | hard => exact ih ps h

theorem wrapped_mem {g : List Rune} {opens closes : List (List Rune)} {all : List Piece} {k : Nat} {ls : List Line}
    {out : List (List Rune)} (h : Wrapped g opens closes all k ls out)
    (hc : (all.drop k).length ≤ (ls.flatMap (fun x => parts x.body)).length) :
    ∀ p ∈ all.drop k, ∃ line ∈ out, p.start ++ p.text ++ p.stop <:+: line := by
  induction h with
  | nil k =>
    intro p hp
    rw [List.eq_nil_of_length_eq_zero (Nat.le_zero.mp hc)] at hp
    cases hp
  | @cons k line rest out a b ha hb hr ih =>
    intro p hp
    rw [← List.take_append_drop (parts line.body).length (all.drop k), List.mem_append] at hp
    rcases hp with hp | hp
    · refine ⟨_, List.mem_cons_self, (dress_mem g line.body _ p hp).trans ?_⟩
      exact ⟨a.flatten, line.ending ++ b.flatten, by simp⟩
    · rw [List.drop_drop] at hp
      rw [List.flatMap_cons, List.length_append, List.length_drop] at hc
      obtain ⟨x, h1, h2⟩ := ih (by rw [List.length_drop]; omega) p hp
      exact ⟨x, List.mem_cons_of_mem _ h1, h2⟩

theorem dressParts_first {start stop : List Rune} {ts : List (List Rune)} (h : ts ≠ []) :
    ∃ p ∈ dressParts start stop ts, p.start = start := by
  match ts, h with
  | [t], _ => exact ⟨_, List.mem_singleton.mpr rfl, rfl⟩
  | t :: u :: us, _ => exact ⟨_, List.mem_cons_self, rfl⟩

theorem dressParts_last {start stop : List Rune} : ∀ {ts : List (List Rune)}, ts ≠ [] →
    ∃ p ∈ dressParts start stop ts, p.stop = stop
  | [t], _ => ⟨_, List.mem_singleton.mpr rfl, rfl⟩
  | t :: u :: us, _ => by
    obtain ⟨p, h1, h2⟩ := dressParts_last (start := []) (stop := stop) (ts := u :: us) (by simp)
    exact ⟨p, List.mem_cons_of_mem _ h1, h2⟩

/-- **C64** (partial, as before). After any history, each start sequence and each stop sequence is written in a line. -/
theorem C64_sequences_partial (c : StyledCall rt env dict opts text n l hist words maxWidth W) (hW : 0 < W)
    (h : leftAlignUniform rt env l (words.map chunkWord) maxWidth = .ok (some lines, l')) :
    ∀ cs ∈ words, ∀ ch ∈ cs, (∃ line ∈ lines, seqRunes ch.start <:+: line) ∧ (∃ line ∈ lines, seqRunes ch.stop <:+: line) := by
  obtain ⟨hy, ls, _, h1, h2⟩ := C64_order_partial c hW h
  have hsp := lossless (env := env) (dict := dict) c.sane
  have hlen : (styledPieces (splitterOf env dict (defaultOptions opts)) (spansOf words)).length ≤
      (ls.flatMap (fun x => parts x.body)).length := by
    rw [layout_parts h1, styledSyms_eq, parts_syms, ← parPieces_text, ← styledPieces_eq]
    simp
  have key := wrapped_mem h2 hlen
  intro cs hcs ch hch
  have hg := (c.made cs hcs).good ch hch
  have hne : parts (tokenSyms (splitterOf env dict (defaultOptions opts)) (chunkSpan ch).text) ≠ [] := by
    have h := (token_token hsp ch.text hg.full).1
    obtain ⟨x, xs, e⟩ := List.exists_cons_of_ne_nil h.ne
    obtain ⟨u, hu⟩ := h.head x (by rw [e]; rfl)
    simp only [chunkSpan]
    rw [e, hu]; simp [parts]
  have hmem : ∀ p ∈ dressParts (chunkSpan ch).start (chunkSpan ch).stop
      (parts (tokenSyms (splitterOf env dict (defaultOptions opts)) (chunkSpan ch).text)),
      p ∈ styledPieces (splitterOf env dict (defaultOptions opts)) (spansOf words) := by
    intro p hp
    refine List.mem_flatMap.mpr ⟨cs.map chunkSpan, List.mem_map_of_mem hcs, ?_⟩
    exact List.mem_flatMap.mpr ⟨chunkSpan ch, List.mem_map_of_mem hch, hp⟩
  constructor
  · obtain ⟨p, hp, e⟩ := dressParts_first (start := (chunkSpan ch).start) (stop := (chunkSpan ch).stop) hne
    obtain ⟨line, k1, k2⟩ := key p (hmem p hp)
    refine ⟨line, k1, List.IsInfix.trans ?_ k2⟩
    rw [e]
    exact ⟨[], p.text ++ p.stop, by simp [chunkSpan]⟩
  · obtain ⟨p, hp, e⟩ := dressParts_last (start := (chunkSpan ch).start) (stop := (chunkSpan ch).stop) hne
    obtain ⟨line, k1, k2⟩ := key p (hmem p hp)
    refine ⟨line, k1, List.IsInfix.trans ?_ k2⟩
    rw [e]
    exact ⟨p.start ++ p.text, [], by simp [chunkSpan]⟩

/-! ## C65 -/

/-- **C65** (partial: a new line breaker, and parameters of at most two digits). When each line ends outside of styled
runs, or in a run with unstyled text on both sides, each line starts with the start sequences open there, and ends with
the stop sequences that close them. -/
theorem C65_lines_partial (c : StyledCall rt env dict opts text n l [] words maxWidth W) (hW : 0 < W)
    (h : leftAlignUniform rt env l (words.map chunkWord) maxWidth = .ok (some lines, l')) :
    let sp := splitterOf env dict (defaultOptions opts)
    let P := styledPieces sp (spansOf words)
    ∃ hy ls, HyphenText (defaultOptions opts) hy ∧
      Layout hy (Acceptable (measureOf (defaultOptions opts) text) W (Tolerated (defaultOptions opts))) false true
        (styledSyms sp (spansOf words)) ls ∧
      ((∀ k ∈ cuts 0 ls, Clean P k) → lines = styledLines (List.replicate n 0x20) P 0 ls) := by
  intro sp P
  rcases styled_exact c hW (styled_nil words h) with ⟨_, h1⟩ | ⟨_, ls, h1, h2⟩
  · obtain ⟨l'', h1⟩ := h1 words c.made rfl
    rw [h1] at h; cases h
  · obtain ⟨lines', l'', e, _, h3⟩ := h2 words c.made rfl
    rw [e] at h
    cases h
    exact ⟨_, ls, hyphenText_new, h1, h3 rfl⟩

theorem cuts_bounds {k : Nat} {ls : List Line} (hst : ∀ x ∈ ls, StartsWithPart x.body) :
    ∀ i ∈ cuts k ls, 0 < i ∧ i ≤ k + (ls.flatMap (fun x => parts x.body)).length := by
  induction ls generalizing k with
  | nil => intro i hi; cases hi
  | cons x ls ih =>
    obtain ⟨t, r, e⟩ := hst x (by simp)
    have hp : 0 < (parts x.body).length := by rw [e]; simp [parts]
    intro i hi
    rw [List.flatMap_cons, List.length_append]
    rcases List.mem_cons.mp hi with rfl | hi
    · omega
    · have := ih (k := k + (parts x.body).length) (fun y hy => hst y (by simp [hy])) i hi
      omega

/-- **C65** (partial, as before). When styled runs are separated by unstyled text. -/
theorem C65_separated_partial (c : StyledCall rt env dict opts text n l [] words maxWidth W) (hW : 0 < W)
    (hs : Separated ((spansOf words).flatten.map Span.piece))
    (h : leftAlignUniform rt env l (words.map chunkWord) maxWidth = .ok (some lines, l')) :
    let sp := splitterOf env dict (defaultOptions opts)
    let P := styledPieces sp (spansOf words)
    ∃ hy ls, HyphenText (defaultOptions opts) hy ∧
      Layout hy (Acceptable (measureOf (defaultOptions opts) text) W (Tolerated (defaultOptions opts))) false true
        (styledSyms sp (spansOf words)) ls ∧
      lines = styledLines (List.replicate n 0x20) P 0 ls := by
  intro sp P
  obtain ⟨hy, ls, h1, h2, h3⟩ := C65_lines_partial c hW h
  refine ⟨hy, ls, h1, h2, h3 ?_⟩
  have hP : Separated P := by
    refine styled_separated (lossless (env := env) (dict := dict) c.sane) ?_ hs
    intro x hx
    obtain ⟨t, ht, hx⟩ := List.mem_flatten.mp hx
    obtain ⟨cs, hcs, rfl⟩ := List.mem_map.mp ht
    obtain ⟨ch, hch, rfl⟩ := List.mem_map.mp hx
    exact ((c.made cs hcs).good ch hch).full
  intro k hk
  have hb := cuts_bounds (layout_bodies h2) k hk
  refine separated_clean hP k hb.1 ?_
  rw [layout_parts h2, styledSyms_eq, parts_syms, ← parPieces_text, ← styledPieces_eq, List.length_map, Nat.zero_add] at hb
  exact hb.2

/-! ## C67 -/

/-- **C67** (partial: parameters have at most two digits and texts between sequences are not empty). After any
history, two texts that differ by their sequences only are both set or none is, with the same text on each line. -/
theorem C67_same_breaks_partial {words' : List (List Chunk)} (c : StyledCall rt env dict opts text n l hist words maxWidth W)
    (c' : StyledCall rt env dict opts text n l hist words' maxWidth W) (hW : 0 < W) (ht : chunkTexts words' = chunkTexts words) :
    let sp := splitterOf env dict (defaultOptions opts)
    let P := styledPieces sp (spansOf words)
    let P' := styledPieces sp (spansOf words')
    (∃ l₁ l₂, leftAlignUniform rt env l (words.map chunkWord) maxWidth = .ok (none, l₁) ∧
      leftAlignUniform rt env l (words'.map chunkWord) maxWidth = .ok (none, l₂)) ∨
    (∃ l₁ l₂ lines lines' hy ls, leftAlignUniform rt env l (words.map chunkWord) maxWidth = .ok (some lines, l₁) ∧
      leftAlignUniform rt env l (words'.map chunkWord) maxWidth = .ok (some lines', l₂) ∧
      HyphenText (defaultOptions opts) hy ∧
      Layout hy (Acceptable (measureOf (defaultOptions opts) text) W (Tolerated (defaultOptions opts))) false true
        (styledSyms sp (spansOf words)) ls ∧
      Wrapped (List.replicate n 0x20) ((hist ++ P).map Piece.start) ((hist ++ P).map Piece.stop) P 0 ls lines ∧
      Wrapped (List.replicate n 0x20) ((hist ++ P').map Piece.start) ((hist ++ P').map Piece.stop) P' 0 ls lines') := by
  intro sp P P'
  by_cases hne : words = []
  · subst hne
    have : words' = [] := by simpa [chunkTexts] using ht
    subst this
    exact Or.inl ⟨l, l, align_nil rt env l maxWidth, align_nil rt env l maxWidth⟩
  rcases styled_exact c hW hne with ⟨_, h1⟩ | ⟨_, ls, h1, h2⟩
  · obtain ⟨l₁, e₁⟩ := h1 words c.made rfl
    obtain ⟨l₂, e₂⟩ := h1 words' c'.made ht
    exact Or.inl ⟨l₁, l₂, e₁, e₂⟩
  · obtain ⟨lines, l₁, e₁, h3, _⟩ := h2 words c.made rfl
    obtain ⟨lines', l₂, e₂, h4, _⟩ := h2 words' c'.made ht
    exact Or.inr ⟨l₁, l₂, lines, lines', _, ls, e₁, e₂, hyphenText_new, h1, h3, h4⟩

end

end Verif.Props
