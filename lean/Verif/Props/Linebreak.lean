import Verif.Proofs.LBReady
import Verif.Proofs.LBReuse
import Verif.Props.Widths

/-! # C49–C63: paragraphs broken into lines

A `Call` is a call of LeftAlignUniform with sane options, on words without escape sequences, by a line
breaker that was used on such words only. `W` is the requested width (after scaling), `text` the widths of
texts and `n` the number of blanks that stand for a space. The theorems hold for every walk of the map of
candidates. -/

set_option linter.unusedSectionVars false

namespace Verif.Props
open Verif.Go Verif.Model Verif.Model.LB Verif.Spec Verif.Spec.Ansi Verif.Spec.LB Verif.Proofs.LB

section
variable {F : Type} [Arith F] [Laws F] {rt : Runtime} {env : Env} {dict : Dictionary} {opts : List (Opt F)}
  {text : List Rune → Int} {n : Nat} {l l' : LineBreaker F} {tokens : List (List Rune)} {maxWidth : F} {W : Int}
  {lines : List (List Rune)}

omit [Laws F] in
theorem align_nil (rt : Runtime) (env : Env) (l : LineBreaker F) (maxWidth : F) :
    leftAlignUniform rt env l [] maxWidth = .ok (none, l) := by
  unfold leftAlignUniform leftAlignedNodes tokensLoop
  have h : (findBestBreak [rootPoint] noBreak : BreakPoint F).previous = [] := by
    simp only [findBestBreak]
    split <;> rfl
  simp [ok_bind, breakPoints, findStartNode, breakLoop, reverseBreakPoints, h]

theorem starts_of_first (c : Call rt env dict opts text n l tokens maxWidth W) (h0 : tokens ≠ [])
    (hf : tokens.head? ≠ some []) :
    StartsWithPart (paraSyms (splitterOf env dict (defaultOptions opts)) tokens) := by
  obtain ⟨t, ts, rfl⟩ := List.exists_cons_of_ne_nil h0
  exact para_starts (lossless c.sane) t (by simpa using hf) ts

theorem call_lines (c : Call rt env dict opts text n l tokens maxWidth W) (hW : 0 < W)
    (hf : tokens.head? ≠ some []) (h : leftAlignUniform rt env l tokens maxWidth = .ok (some lines, l')) :
    ∃ ls, Layout (hyOf (new env dict opts)) (Acceptable (measureOf (defaultOptions opts) text) W
        (Tolerated (defaultOptions opts))) false true (paraSyms (splitterOf env dict (defaultOptions opts)) tokens) ls ∧
      lines = ls.map (Line.text (List.replicate n 0x20)) := by
  by_cases h0 : tokens = []
  · subst h0; rw [align_nil] at h; cases h
  obtain ⟨l'', h1 | ⟨_, ls, h1, h2, _⟩⟩ := call_exact c hW (starts_of_first c h0 hf)
  · rw [h1.2] at h; cases h
  · rw [h2] at h
    cases h
    exact ⟨ls, h1, rfl⟩

theorem hyOf_cases (s : Sym) : hyOf (new env dict opts : LineBreaker F) s = [] ∨ hyOf (new env dict opts : LineBreaker F) s = [0x2D] := by
  unfold hyOf
  split
  · exact Or.inr rfl
  · exact Or.inl rfl

theorem hyOf_own (h : (defaultOptions opts).renderHyphens = true → OwnPenalty (defaultOptions opts)) (s : Sym)
    (hs : ∀ t, s ≠ .part t) : hyOf (new env dict opts : LineBreaker F) s = hyphenAt (defaultOptions opts) s := by
  obtain ⟨_, _, _, h4, h5, _⟩ := fixed_options opts
  have e1 : (new env dict opts : LineBreaker F).renderHyphens = (defaultOptions opts).renderHyphens := rfl
  have e2 : (new env dict opts : LineBreaker F).hyphenPenalty = (defaultOptions opts).hyphenPenalty := rfl
  have e3 : (new env dict opts : LineBreaker F).hardHyphenPenalty = Arith.ofInt 200 := h4
  have e4 : (new env dict opts : LineBreaker F).punctuationPenalty = Arith.ofInt 400 := h5
  unfold hyOf
  rw [e1, e2]
  cases hr : (defaultOptions opts).renderHyphens with
  | false => cases s <;> simp [hyphenAt, hr]
  | true =>
    have ho := h hr
    cases s with
    | part t => exact absurd rfl (hs t)
    | gap =>
      have : Arith.eq (zero : F) (defaultOptions opts).hyphenPenalty = false := ho.gap
      simp [penOf, this, hyphenAt]
    | soft => simp [penOf, e2, ho.number, hyphenAt, hr, hyphen]
    | mark => simp [penOf, e4, ho.mark, hyphenAt]
    | hard => simp [penOf, e3, ho.hard, hyphenAt]

/-! ## C50 -/

/-- **C50.** The lines hold the text of the words, in order, neither more nor less: a line ends between two
words, where it replaces the space, or inside a word; a hyphen may be added at its end. -/
theorem C50_text_kept (c : Call rt env dict opts text n l tokens maxWidth W) (hW : 0 < W) (hne : ∀ t ∈ tokens, t ≠ [])
    (h : leftAlignUniform rt env l tokens maxWidth = .ok (some lines, l')) :
    Reflow (List.replicate n 0x20) (fun e => e = [] ∨ e = [0x2D]) (fun _ e => e = [] ∨ e = [0x2D]) (joined tokens) lines := by
  have hf : tokens.head? ≠ some [] := fun e => hne [] (List.mem_of_mem_head? e) rfl
  obtain ⟨ls, h1, rfl⟩ := call_lines c hW hf h
  have hl := lossless (env := env) (dict := dict) c.sane
  rw [← para_chars hl tokens]
  exact layout_reflow h1 _ (Or.inl rfl) (fun s _ _ _ => hyOf_cases s) (fun _ _ s _ _ _ => hyOf_cases s)
    (para_chain hl tokens hne) (para_full hl tokens)

/-! ## C57 -/

theorem layout_hy {hy hy' : Sym → List Rune} {P : Bool → List Sym → Option Sym → Prop} {first : Bool} {ss : List Sym}
    {ls : List Line} (he : ∀ s, (∀ t, s ≠ .part t) → hy s = hy' s) (h : Layout hy P false first ss ls) :
    Layout hy' P false first ss ls := by
  induction h with
  | blankLine h => cases h
  | lastBlank h => cases h
  | blankAfter _ h => cases h
  | last p a b => exact .last p a b
  | brk p s x a b c d _ ih => exact .brk p s x a b (by rw [← he s b]; exact c) d ih

/-- **C57.** When the penalty of hyphens differs from the other ones, a hyphen is added to the lines that
end at a hyphenation point, and to no other. -/
theorem C57_hyphens_at_cuts (c : Call rt env dict opts text n l tokens maxWidth W) (hW : 0 < W)
    (hf : tokens.head? ≠ some []) (ho : (defaultOptions opts).renderHyphens = true → OwnPenalty (defaultOptions opts))
    (h : leftAlignUniform rt env l tokens maxWidth = .ok (some lines, l')) :
    ∃ ls, Layout (hyphenAt (defaultOptions opts)) (Acceptable (measureOf (defaultOptions opts) text) W
        (Tolerated (defaultOptions opts))) false true (paraSyms (splitterOf env dict (defaultOptions opts)) tokens) ls ∧
      lines = ls.map (Line.text (List.replicate n 0x20)) := by
  obtain ⟨ls, h1, h2⟩ := call_lines c hW hf h
  exact ⟨ls, layout_hy (fun s hs => hyOf_own ho s hs) h1, h2⟩

/-- **C57.** In terms of the text: lines that end between two words have nothing added; the ones that end inside
a word have a hyphen added, unless they end right after a punctuation mark or an explicit hyphen. -/
theorem C57_hyphens_in_text (c : Call rt env dict opts text n l tokens maxWidth W) (hW : 0 < W)
    (hne : ∀ t ∈ tokens, t ≠ []) (hr : (defaultOptions opts).renderHyphens = true) (ho : OwnPenalty (defaultOptions opts))
    (h : leftAlignUniform rt env l tokens maxWidth = .ok (some lines, l')) :
    Reflow (List.replicate n 0x20) (fun e => e = [])
      (fun r e => e = [0x2D] ∨ (e = [] ∧ (IsMark env r ∨ isHyphenRune r = true))) (joined tokens) lines := by
  have hf : tokens.head? ≠ some [] := fun e => hne [] (List.mem_of_mem_head? e) rfl
  obtain ⟨ls, h1, rfl⟩ := C57_hyphens_at_cuts c hW hf (fun _ => ho) h
  have hl := lossless (env := env) (dict := dict) c.sane
  rw [← para_chars hl tokens]
  refine layout_reflow h1 _ rfl ?_ ?_ (para_chain hl tokens hne) (para_full hl tokens)
  · intro s _ hs hp
    cases s <;> simp_all [hyphenAt]
  · intro v r s hi hg hp
    obtain ⟨a1, a2⟩ := para_after _ tokens _ s hi
    cases s with
    | part t => exact absurd rfl (hp t)
    | gap => exact absurd rfl hg
    | soft => left; simp [hyphenAt, hr]
    | mark =>
      right
      refine ⟨rfl, Or.inl ?_⟩
      obtain ⟨r', e, hm⟩ := (C06_isPunctuation_iff env _).mp (a1 rfl)
      have : r = r' := by
        have := congrArg List.getLast? e
        simpa using this
      rw [this]; exact hm
    | hard =>
      right
      refine ⟨rfl, Or.inr ?_⟩
      have hh : isHyphen (v ++ [r]) = true := a2 rfl
      unfold isHyphen at hh
      split at hh
      · cases hh
      · have hv : v = [] := by
          have : (v ++ [r]).length = 1 := by simpa using ‹¬ (v ++ [r]).length ≠ 1›
          simpa using this
        subst hv
        simpa using hh

/-! ## C63 -/

/-- **C63.** Without word breaking, a line that ends inside a word ends right after a punctuation mark, and
no hyphen is added. -/
theorem C63_words_whole (c : Call rt env dict opts text n l tokens maxWidth W) (hW : 0 < W)
    (hne : ∀ t ∈ tokens, t ≠ []) (hb : (defaultOptions opts).wordBreak = false)
    (ho : (defaultOptions opts).renderHyphens = true → OwnPenalty (defaultOptions opts))
    (h : leftAlignUniform rt env l tokens maxWidth = .ok (some lines, l')) :
    Reflow (List.replicate n 0x20) (fun e => e = []) (fun r e => e = [] ∧ IsMark env r) (joined tokens) lines := by
  have hf : tokens.head? ≠ some [] := fun e => hne [] (List.mem_of_mem_head? e) rfl
  obtain ⟨ls, h1, rfl⟩ := C57_hyphens_at_cuts c hW hf ho h
  have hl := lossless (env := env) (dict := dict) c.sane
  rw [← para_chars hl tokens]
  obtain ⟨w1, w2⟩ := para_whole (splitterOf env dict (defaultOptions opts)) hb tokens
  refine layout_reflow h1 _ rfl ?_ ?_ (para_chain hl tokens hne) (para_full hl tokens)
  · intro s _ hs hp
    cases s <;> simp_all [hyphenAt]
  · intro v r s hi hg hp
    have hmem : s ∈ paraSyms (splitterOf env dict (defaultOptions opts)) tokens := hi.subset (by simp)
    obtain ⟨a1, a2⟩ := para_after _ tokens _ s hi
    cases s with
    | part t => exact absurd rfl (hp t)
    | gap => exact absurd rfl hg
    | soft => exact absurd hmem w1
    | hard => exact absurd hmem w2
    | mark =>
      refine ⟨rfl, ?_⟩
      obtain ⟨r', e, hm⟩ := (C06_isPunctuation_iff env _).mp (a1 rfl)
      have : r = r' := by
        have := congrArg List.getLast? e
        simpa using this
      rw [this]; exact hm

/-! ## C51 -/

theorem layout_each {hy : Sym → List Rune} {P : Bool → List Sym → Option Sym → Prop} {first : Bool} {ss : List Sym}
    {ls : List Line} (h : Layout hy P false first ss ls) : ∀ x ∈ ls, (∀ s ∈ x.body, s ∈ ss) ∧
      ∃ f s, P f x.body s ∧ (x.ending = [] ∨ ∃ s', s = some s' ∧ x.ending = hy s' ∧ s' ∈ ss ∧ ∀ t, s' ≠ .part t) := by
  induction h with
  | blankLine h => cases h
  | lastBlank h => cases h
  | blankAfter _ h => cases h
  | @last first p a b =>
    intro y hy
    rw [List.mem_singleton] at hy
    subst hy
    exact ⟨fun _ h => h, first, none, b, Or.inl rfl⟩
  | @brk first p s x rest lines a b c d e ih =>
    intro y hy
    rcases List.mem_cons.mp hy with rfl | hy
    · refine ⟨fun z hz => by simp [show z ∈ p from hz], first, some s, d, ?_⟩
      rcases c with c | c
      · exact Or.inr ⟨s, rfl, c, by simp, b⟩
      · exact Or.inl c.2
    · have hsub : ∀ z ∈ startLine rest, z ∈ p ++ s :: rest := by
        intro z hz
        have : ∀ r : List Sym, z ∈ startLine r → z ∈ r := by
          intro r
          induction r with
          | nil => simp [startLine]
          | cons q r ih => cases q <;> simp [startLine] <;> tauto
        simp [this rest hz]
      obtain ⟨h1, f, s', h2, h3⟩ := ih y hy
      refine ⟨fun z hz => hsub z (h1 z hz), f, s', h2, ?_⟩
      rcases h3 with h3 | ⟨s'', h3, h4, h5, h6⟩
      · exact Or.inl h3
      · exact Or.inr ⟨s'', h3, h4, hsub _ h5, h6⟩

theorem acceptable_le {m : Measure} {ok : Int → Int → Prop} {first : Bool} {p : List Sym} {s : Option Sym}
    (h : Acceptable m W ok first p s) : lineWidth m p + endWidth m s ≤ W := by
  rcases h with h | ⟨h, _⟩
  · exact le_of_eq h
  · exact le_of_lt h

/-- The measure is a sum over runes, for runes in use. -/
def SumOf (text : List Rune → Int) (tokens : List (List Rune)) (wd : Rune → Int) : Prop :=
  ∀ t : List Rune, (∀ r ∈ t, r = 0x20 ∨ r = 0x2D ∨ ∃ u ∈ tokens, r ∈ u) → text t = (t.map wd).sum

theorem text_syms {ss : List Sym} (hc : chars ss = joined tokens) {wd : Rune → Int} (hwd : SumOf text tokens wd) (m : Measure)
    (hm : m.text = text) (hsp : m.space = text [0x20]) (p : List Sym) (hp : ∀ s ∈ p, s ∈ ss) :
    (∀ r ∈ lineText [0x20] p, r = 0x20 ∨ r = 0x2D ∨ ∃ u ∈ tokens, r ∈ u) ∧
      ((lineText [0x20] p).map wd).sum = lineWidth m p := by
  induction p with
  | nil => simp [lineText, lineWidth]
  | cons s p ih =>
    obtain ⟨i1, i2⟩ := ih (fun s hs => hp s (by simp [hs]))
    have hpart : ∀ t, s = .part t → ∀ r ∈ t, ∃ u ∈ tokens, r ∈ u := by
      rintro t rfl r hr
      have hmem := hp (.part t) (by simp)
      have : Ch.rune r ∈ chars ss := by
        unfold chars
        rw [List.mem_flatMap]
        exact ⟨_, hmem, by simp [symCh, hr]⟩
      rw [hc] at this
      exact mem_joined tokens r this
    cases s with
    | part t =>
      refine ⟨?_, ?_⟩
      · intro r hr
        simp only [lineText, List.mem_append] at hr
        rcases hr with hr | hr
        · exact Or.inr (Or.inr (hpart t rfl r hr))
        · exact i1 r hr
      · simp only [lineText, lineWidth, List.map_append, List.sum_append, i2, hm]
        rw [hwd t (fun r hr => Or.inr (Or.inr (hpart t rfl r hr)))]
    | gap =>
      refine ⟨?_, ?_⟩
      · intro r hr
        simp only [lineText, List.mem_append, List.mem_singleton] at hr
        rcases hr with hr | hr
        · exact Or.inl hr
        · exact i1 r hr
      · simp only [lineText, lineWidth, List.map_append, List.sum_append, i2, hsp]
        rw [hwd [0x20] (by simp)]
    | soft => exact ⟨i1, i2⟩
    | mark => exact ⟨i1, i2⟩
    | hard => exact ⟨i1, i2⟩

theorem text_body {sp : Splitter} (hl : sp.Lossless) {wd : Rune → Int} (hwd : SumOf text tokens wd) (m : Measure)
    (hm : m.text = text) (hsp : m.space = text [0x20]) (p : List Sym) (hp : ∀ s ∈ p, s ∈ paraSyms sp tokens) :
    (∀ r ∈ lineText [0x20] p, r = 0x20 ∨ r = 0x2D ∨ ∃ u ∈ tokens, r ∈ u) ∧
      ((lineText [0x20] p).map wd).sum = lineWidth m p :=
  text_syms (para_chars hl tokens) hwd m hm hsp p hp

theorem layout_widths {ss : List Sym} {ls : List Line} {ok : Int → Int → Prop} (hs : Sane (defaultOptions opts) text n)
    (hc : chars ss = joined tokens) (hsoft : (defaultOptions opts).wordBreak = false → .soft ∉ ss)
    (wd : Rune → Int) (hwd : SumOf text tokens wd)
    (h1 : Layout (hyphenAt (defaultOptions opts)) (Acceptable (measureOf (defaultOptions opts) text) W ok) false true ss ls) :
    ∀ x ∈ ls, text (Line.text [0x20] x) ≤ W ∧ (∀ r ∈ Line.text [0x20] x, r = 0x20 ∨ r = 0x2D ∨ ∃ u ∈ tokens, r ∈ u) := by
  intro x hx
  obtain ⟨g1, f, s, g2, g3⟩ := layout_each h1 x hx
  have hle := acceptable_le g2
  obtain ⟨t1, t2⟩ := text_syms hc hwd (measureOf (defaultOptions opts) text) rfl rfl x.body g1
  have hn : ∀ s : Option Sym, 0 ≤ endWidth (measureOf (defaultOptions opts) text) s := by
    intro s
    have := hs.nonneg [0x2D]
    unfold endWidth measureOf
    cases (defaultOptions opts).wordBreak <;> cases (defaultOptions opts).renderHyphens <;>
      (split <;> simp [this])
  show text (lineText [0x20] x.body ++ x.ending) ≤ W ∧ ∀ r ∈ lineText [0x20] x.body ++ x.ending, _
  rcases g3 with e | ⟨s', rfl, e, hmem, hs'⟩
  · rw [e, List.append_nil, hwd _ t1, t2]
    have := hn s
    exact ⟨by omega, t1⟩
  · by_cases hsoft' : s' = .soft ∧ (defaultOptions opts).renderHyphens = true
    · obtain ⟨rfl, hr⟩ := hsoft'
      have hbr : (defaultOptions opts).wordBreak = true := by
        by_contra hb
        exact hsoft (by simpa using hb) hmem
      have e' : x.ending = [0x2D] := by rw [e]; simp [hyphenAt, hr]
      have hend : endWidth (measureOf (defaultOptions opts) text) (some .soft) = text [0x2D] := by
        simp [endWidth, measureOf, hr, hbr]
      rw [hend] at hle
      have hall : ∀ r ∈ lineText [0x20] x.body ++ [0x2D], r = 0x20 ∨ r = 0x2D ∨ ∃ u ∈ tokens, r ∈ u := by
        intro r hr
        rw [List.mem_append, List.mem_singleton] at hr
        rcases hr with hr | hr
        · exact t1 r hr
        · exact Or.inr (Or.inl hr)
      rw [e']
      refine ⟨?_, hall⟩
      rw [hwd _ hall, List.map_append, List.sum_append, t2, ← hwd [0x2D] (by simp)]
      exact hle
    · have e' : x.ending = [] := by
        rw [e]
        cases s' with
        | soft => simp only [true_and] at hsoft'; simp [hyphenAt, hsoft']
        | _ => rfl
      rw [e', List.append_nil, hwd _ t1, t2]
      have := hn (some s')
      exact ⟨by omega, t1⟩

/-- **C51.** When widths are sums of widths of runes and the penalty of hyphens differs from the other ones, no
line is wider than requested (after scaling and rounding). -/
theorem C51_width_partial (c : Call rt env dict opts text 1 l tokens maxWidth W) (hW : 0 < W)
    (hf : tokens.head? ≠ some []) (ho : (defaultOptions opts).renderHyphens = true → OwnPenalty (defaultOptions opts))
    (wd : Rune → Int) (hwd : SumOf text tokens wd)
    (h : leftAlignUniform rt env l tokens maxWidth = .ok (some lines, l')) : ∀ line ∈ lines, text line ≤ W := by
  obtain ⟨ls, h1, rfl⟩ := C57_hyphens_at_cuts c hW hf ho h
  have hl := lossless (env := env) (dict := dict) c.sane
  intro line hline
  obtain ⟨x, hx, rfl⟩ := List.mem_map.mp hline
  exact (layout_widths c.sane (para_chars hl tokens)
    (fun hb => (para_whole (splitterOf env dict (defaultOptions opts)) hb tokens).1) wd hwd h1 x hx).1

/-! ## C52, C58 -/

/-- **C52.** A paragraph is set if and only if it has an acceptable setting; otherwise the result is
ErrCannotBeSet. -/
theorem C52_set_iff (c : Call rt env dict opts text n l tokens maxWidth W) (hW : 0 < W) (h0 : tokens ≠ [])
    (hf : tokens.head? ≠ some []) :
    ((∃ lines l', leftAlignUniform rt env l tokens maxWidth = .ok (some lines, l')) ↔
      Settable (measureOf (defaultOptions opts) text) W (Tolerated (defaultOptions opts))
        (paraSyms (splitterOf env dict (defaultOptions opts)) tokens)) ∧
    ((∃ l', leftAlignUniform rt env l tokens maxWidth = .ok (none, l')) ↔
      ¬ Settable (measureOf (defaultOptions opts) text) W (Tolerated (defaultOptions opts))
        (paraSyms (splitterOf env dict (defaultOptions opts)) tokens)) := by
  obtain ⟨l'', ⟨h1, h2⟩ | ⟨h1, ls, _, h2, _⟩⟩ := call_exact c hW (starts_of_first c h0 hf)
  · rw [h2]
    refine ⟨⟨?_, fun h => absurd h h1⟩, ⟨fun _ => h1, fun _ => ⟨_, rfl⟩⟩⟩
    rintro ⟨_, _, h⟩; cases h
  · rw [h2]
    refine ⟨⟨fun _ => h1, fun _ => ⟨_, _, rfl⟩⟩, ⟨?_, fun h => absurd h1 h⟩⟩
    rintro ⟨_, h⟩; cases h

/-- **C58**, for the existence of a result (the lines themselves depend on the walk of a map, see
`C58_walk_fails`): whether a paragraph is set depends neither on the walk of the map, nor on earlier calls. -/
theorem C58_success_partial {rt' : Runtime} {l₂ : LineBreaker F} (c : Call rt env dict opts text n l tokens maxWidth W)
    (c' : Call rt' env dict opts text n l₂ tokens maxWidth W) (hW : 0 < W) (hf : tokens.head? ≠ some []) :
    (∃ l', leftAlignUniform rt env l tokens maxWidth = .ok (none, l')) ↔
      ∃ l', leftAlignUniform rt' env l₂ tokens maxWidth = .ok (none, l') := by
  by_cases h0 : tokens = []
  · subst h0
    rw [align_nil, align_nil]
    exact ⟨fun _ => ⟨_, rfl⟩, fun _ => ⟨_, rfl⟩⟩
  · exact (C52_set_iff c hW h0 hf).2.trans (C52_set_iff c' hW h0 hf).2.symm

/-! ## C53 -/

/-- **C53.** The lines are consecutive stretches of the paragraph: each one ends between two words, after a
mark or a hyphen, at a hyphenation point, or with the paragraph; and each one is acceptable. -/
theorem C53_legal_breaks (c : Call rt env dict opts text n l tokens maxWidth W) (hW : 0 < W)
    (hf : tokens.head? ≠ some []) (h : leftAlignUniform rt env l tokens maxWidth = .ok (some lines, l')) :
    ∃ hy ls, Layout hy (Acceptable (measureOf (defaultOptions opts) text) W
        (Tolerated (defaultOptions opts))) false true (paraSyms (splitterOf env dict (defaultOptions opts)) tokens) ls ∧
      (∀ s, hy s = [] ∨ hy s = [0x2D]) ∧ lines = ls.map (Line.text (List.replicate n 0x20)) := by
  obtain ⟨ls, h1, h2⟩ := call_lines c hW hf h
  exact ⟨_, ls, h1, hyOf_cases, h2⟩

/-- **C53.** Also with empty words, and in any width: but then there may be blank lines. -/
theorem C53_any_words (c : Call rt env dict opts text n l tokens maxWidth W)
    (h : leftAlignUniform rt env l tokens maxWidth = .ok (some lines, l')) :
    ∃ hy ls, Layout hy (fun _ p s => lineWidth (measureOf (defaultOptions opts) text) p +
          endWidth (measureOf (defaultOptions opts) text) s ≤ W) true true
        (startLine (paraSyms (splitterOf env dict (defaultOptions opts)) tokens)) ls ∧
      (∀ s, hy s = [] ∨ hy s = [0x2D]) ∧ lines = ls.map (Line.text (List.replicate n 0x20)) := by
  by_cases h0 : tokens = []
  · subst h0; rw [align_nil] at h; cases h
  rcases call_structure c h0 with h1 | ⟨l'', h1 | ⟨ls, h1, h2⟩⟩
  · rw [h1] at h; cases h
  · rw [h1] at h; cases h
  · rw [h2] at h; cases h
    exact ⟨_, ls, h1, hyOf_cases, rfl⟩

/-! ## C54 -/

/-- **C54**, for paragraphs that do not start with an empty word (see `C54_leading_empty_fails`): there is no
panic. -/
theorem C54_no_panic_partial (c : Call rt env dict opts text n l tokens maxWidth W) (hW : 0 < W)
    (hf : tokens.head? ≠ some []) : ∃ r, leftAlignUniform rt env l tokens maxWidth = .ok r := by
  by_cases h0 : tokens = []
  · subst h0; exact ⟨_, align_nil rt env l maxWidth⟩
  obtain ⟨l'', ⟨_, h2⟩ | ⟨_, ls, _, h2, _⟩⟩ := call_exact c hW (starts_of_first c h0 hf)
  · exact ⟨_, h2⟩
  · exact ⟨_, h2⟩

/-! ## C55 -/

theorem lineText_joined {sp : Splitter} (hl : sp.Lossless) (g : List Rune) (ts : List (List Rune)) :
    lineText g (paraSyms sp ts) = List.intercalate g ts := by
  rw [lineText_chars, para_chars hl]
  induction ts with
  | nil => rfl
  | cons t ts ih =>
    cases ts with
    | nil => simp [joined, chText_runes, List.intercalate]
    | cons u us =>
      simp only [joined, chText_append, chText_runes, chText, ih]
      simp [List.intercalate]

theorem layout_one {hy : Sym → List Rune} {P : Bool → List Sym → Option Sym → Prop} {first : Bool} {ss : List Sym}
    {ls : List Line} (h : Layout hy P false first ss ls) (hlen : ls.length = 1) : ls = [⟨ss, []⟩] := by
  cases h with
  | last p _ _ => rfl
  | brk p s x a b c d e =>
    obtain ⟨e1, _⟩ := layout_lines e
    simp at hlen
    exact absurd hlen e1
  | blankLine h => cases h
  | lastBlank h => cases h
  | blankAfter _ h => cases h

theorem fits_acceptable (c : Call rt env dict opts text n l tokens maxWidth W) (hnarrow : W ≤ 4997)
    (ht : Arith.le (Arith.tenths 5) (defaultOptions opts).tolerance = true)
    (hfit : lineWidth (measureOf (defaultOptions opts) text) (paraSyms (splitterOf env dict (defaultOptions opts)) tokens) ≤ W) :
    Acceptable (measureOf (defaultOptions opts) text) W (Tolerated (defaultOptions opts)) true
      (paraSyms (splitterOf env dict (defaultOptions opts)) tokens) none := by
  have hnn : 0 ≤ lineWidth (measureOf (defaultOptions opts) text) (paraSyms (splitterOf env dict (defaultOptions opts)) tokens) :=
    lineWidth_nonneg (setup_new (env := env) (dict := dict) c.sane) _
  unfold Acceptable
  simp only [endWidth, lineStretch, if_true, add_zero, sub_zero]
  rcases eq_or_lt_of_le hfit with e | e
  · exact Or.inl e
  · refine Or.inr ⟨e, by decide, ?_⟩
    refine Laws.le_trans _ _ _ (Laws.div_half _ _ (by omega) (by decide) ?_ (by omega)) ht
    exact _root_.le_trans (by decide) (Laws.bound_large (F := F))

/-- **C55.** A paragraph that fits is set on one line, in widths up to 4997 (see `C55_wide_lines_differ`) with a
tolerance of at least one half. -/
theorem C55_single_line (c : Call rt env dict opts text n l tokens maxWidth W) (hW : 0 < W) (h0 : tokens ≠ [])
    (hf : tokens.head? ≠ some []) (hnarrow : W ≤ 4997)
    (ht : Arith.le (Arith.tenths 5) (defaultOptions opts).tolerance = true)
    (hfit : lineWidth (measureOf (defaultOptions opts) text) (paraSyms (splitterOf env dict (defaultOptions opts)) tokens) ≤ W) :
    ∃ l', leftAlignUniform rt env l tokens maxWidth =
      .ok (some [List.intercalate (List.replicate n 0x20) tokens], l') := by
  have hst := starts_of_first c h0 hf
  have hacc := fits_acceptable c hnarrow ht hfit
  obtain ⟨l'', ⟨h1, _⟩ | ⟨_, ls, h1, h2, h3, _⟩⟩ := call_exact c hW hst
  · exact absurd ⟨_, Layout.last _ hst hacc⟩ h1
  · have hlen := h3 hnarrow hacc
    refine ⟨l'', ?_⟩
    rw [h2]
    rw [layout_one h1 hlen]
    simp only [List.map_cons, List.map_nil, Line.text, List.append_nil]
    rw [lineText_joined (lossless c.sane)]

/-- **C55.** In terms of the text, when widths are sums of widths of runes. -/
theorem C55_text_fits (c : Call rt env dict opts text 1 l tokens maxWidth W) (hW : 0 < W) (h0 : tokens ≠ [])
    (hf : tokens.head? ≠ some []) (hnarrow : W ≤ 4997)
    (ht : Arith.le (Arith.tenths 5) (defaultOptions opts).tolerance = true) (wd : Rune → Int) (hwd : SumOf text tokens wd)
    (hfit : text (List.intercalate [0x20] tokens) ≤ W) :
    ∃ l', leftAlignUniform rt env l tokens maxWidth = .ok (some [List.intercalate [0x20] tokens], l') := by
  refine C55_single_line c hW h0 hf hnarrow ht ?_
  have hl := lossless (env := env) (dict := dict) c.sane
  obtain ⟨t1, t2⟩ := text_body hl hwd (measureOf (defaultOptions opts) text) rfl rfl
    (paraSyms (splitterOf env dict (defaultOptions opts)) tokens) (fun _ h => h)
  rw [← t2, ← hwd _ t1, lineText_joined hl]
  exact hfit

/-! ## C59 -/

theorem ratio_nonneg {m : Measure} {ok : Int → Int → Prop} {first : Bool} {p : List Sym} {s : Option Sym}
    (h : Acceptable m W ok first p s) : 0 ≤ lineRatio m W first p s := by
  unfold lineRatio
  rcases h with h | ⟨h1, h2, _⟩
  · rw [h]; simp
  · exact div_nonneg (by exact_mod_cast (by omega)) (by exact_mod_cast h2.le)

theorem demerits_ge {m : Measure} {h f : Rat} (hh : 0 ≤ h) (hf : 0 ≤ f) {ok : Int → Int → Prop} {first flag : Bool} {cls : Int}
    {p : List Sym} {s : Option Sym} (ha : Acceptable m W ok first p s) : 100 ≤ lineDemerits m W h f first flag cls p s := by
  have hr := ratio_nonneg ha
  have hp : 0 ≤ linePenalty h s := by
    unfold linePenalty
    split <;> first | exact hh | norm_num
  have h3 : (0 : Rat) ≤ 100 * lineRatio m W first p s ^ 3 := mul_nonneg (by norm_num) (pow_nonneg hr 3)
  have h4 : (100 : Rat) ≤ (10 + 100 * lineRatio m W first p s ^ 3 + linePenalty h s) ^ 2 := by
    have : (10 : Rat) ≤ 10 + 100 * lineRatio m W first p s ^ 3 + linePenalty h s := by linarith
    calc (100 : Rat) = 10 ^ 2 := by norm_num
      _ ≤ _ := pow_le_pow_left₀ (by norm_num) this 2
  have h5 : (0 : Rat) ≤ if (flag && lineFlag s) = true then f else 0 := by split <;> first | exact hf | exact le_refl _
  have h6 : (0 : Rat) ≤ if 1 < |lineClass (lineRatio m W first p s) - cls| then 200 else 0 := by
    split <;> norm_num
  unfold lineDemerits
  simp only
  linarith

theorem setting_ge {m : Measure} {h f : Rat} (hh : 0 ≤ h) (hf : 0 ≤ f) {ok : Int → Int → Prop} {first flag : Bool} {cls : Int}
    {ss : List Sym} {bodies : List (List Sym)} {d : Rat} (hs : Setting m W h f ok first flag cls ss bodies d) : 100 ≤ d := by
  cases hs with
  | last p _ ha => exact demerits_ge hh hf ha
  | brk p s _ _ ha hr =>
    have h1 := demerits_ge (flag := flag) (cls := cls) hh hf ha
    have h2 := setting_ge hh hf hr
    linarith

/-- **C59**, for paragraphs that fit on one line of at most 3000 units (in general the lines do not have the least
demerits, see `C59_minimal_fails`): no acceptable setting has fewer demerits than the line returned. -/
theorem C59_single_line_partial (c : Call rt env dict opts text n l tokens maxWidth W) (hW : 0 < W) (h0 : tokens ≠ [])
    (hf : tokens.head? ≠ some []) (hnarrow : W ≤ 3000)
    (ht : Arith.le (Arith.tenths 5) (defaultOptions opts).tolerance = true)
    (hfit : lineWidth (measureOf (defaultOptions opts) text) (paraSyms (splitterOf env dict (defaultOptions opts)) tokens) ≤ W)
    (h f : Rat) (hh : 0 ≤ h) (hfl : 0 ≤ f) :
    ∃ l' d, leftAlignUniform rt env l tokens maxWidth =
        .ok (some [lineText (List.replicate n 0x20) (paraSyms (splitterOf env dict (defaultOptions opts)) tokens)], l') ∧
      Setting (measureOf (defaultOptions opts) text) W h f (Tolerated (defaultOptions opts)) true false 1
        (paraSyms (splitterOf env dict (defaultOptions opts)) tokens)
        [paraSyms (splitterOf env dict (defaultOptions opts)) tokens] d ∧
      ∀ bodies d', Setting (measureOf (defaultOptions opts) text) W h f (Tolerated (defaultOptions opts)) true false 1
        (paraSyms (splitterOf env dict (defaultOptions opts)) tokens) bodies d' → d ≤ d' := by
  obtain ⟨l', hl'⟩ := C55_single_line c hW h0 hf (by omega) ht hfit
  rw [← lineText_joined (lossless (env := env) (dict := dict) c.sane)] at hl'
  have hacc := fits_acceptable c (by omega : W ≤ 4997) ht hfit
  refine ⟨l', _, hl', .last _ (starts_of_first c h0 hf) hacc, ?_⟩
  have hnn : 0 ≤ lineWidth (measureOf (defaultOptions opts) text) (paraSyms (splitterOf env dict (defaultOptions opts)) tokens) :=
    lineWidth_nonneg (setup_new (env := env) (dict := dict) c.sane) _
  generalize paraSyms (splitterOf env dict (defaultOptions opts)) tokens = ss at *
  generalize measureOf (defaultOptions opts) text = m at *
  have hr0 := ratio_nonneg hacc
  have hr1 : lineRatio m W true ss none ≤ 3 / 10 := by
    unfold lineRatio
    simp only [endWidth, lineStretch, if_true, add_zero, sub_zero]
    rw [div_le_iff₀ (by norm_num)]
    have : ((W - lineWidth m ss : Int) : Rat) ≤ 3000 := by exact_mod_cast (by omega)
    push_cast at this ⊢
    linarith
  have hd : lineDemerits m W h f true false 1 ss none ≤ 200 := by
    unfold lineDemerits
    have hc : lineClass (lineRatio m W true ss none) = 1 := by
      unfold lineClass
      rw [if_pos (by linarith)]
    simp only [hc, Bool.false_and, Bool.false_eq_true, if_false, linePenalty, sub_self, abs_zero, add_zero]
    rw [if_neg (by decide), add_zero]
    have h3 : lineRatio m W true ss none ^ 3 ≤ (3 / 10) ^ 3 := pow_le_pow_left₀ hr0 hr1 3
    have h4 : (0 : Rat) ≤ lineRatio m W true ss none ^ 3 := pow_nonneg hr0 3
    calc (10 + 100 * lineRatio m W true ss none ^ 3) ^ 2 ≤ (10 + 100 * (3 / 10 : Rat) ^ 3) ^ 2 :=
          pow_le_pow_left₀ (by linarith) (by linarith) 2
      _ ≤ 200 := by norm_num
  intro bodies d' hs
  cases hs with
  | last p _ _ => exact le_refl _
  | brk p s _ _ ha hr =>
    have h1 := demerits_ge (flag := false) (cls := 1) hh hfl ha
    have h2 := setting_ge hh hfl hr
    linarith

/-! ## C60 -/

/-- **C60.** There is no line for no words, whatever the line breaker and the width. -/
theorem C60_no_words (rt : Runtime) (env : Env) (l : LineBreaker F) (maxWidth : F) :
    leftAlignUniform rt env l [] maxWidth = .ok (none, l) := align_nil rt env l maxWidth

/-- **C60**, for one empty word (with more of them there may be lines, see `C60_empty_words_fails`). -/
theorem C60_empty_word_partial (c : Call rt env dict opts text n l [[]] maxWidth W) (hW : 0 < W) :
    ∃ l', leftAlignUniform rt env l [[]] maxWidth = .ok (none, l') := by
  have hk := kept_used c.sane c.digits c.used
  obtain ⟨L, hL, hl⟩ := hk.plain
  have ho := hk.options
  have hu : Usual l.toOptions := ho ▸ usual_new c.sane
  have hlo := lossless (env := env) (dict := dict) c.sane
  have hmk : (splitterOf env dict (defaultOptions opts)).marks [] = [] := by
    have h := hlo.marks []
    by_contra hne
    obtain ⟨x, xs, e⟩ := List.exists_cons_of_ne_nil hne
    rw [e] at h
    have : x = [] := by have := h.1; simp at this; exact this.1
    rw [this] at h
    exact h.2 (by simp)
  have hp := leftAlignedNodes_eq (hk.splits c.sane) (measureOf (defaultOptions opts) text) [[]] _
    (strips_all rt c.digits [[]] c.escapeFree) (by simp) L hl
  have hn : parBlocks (splitterOf env dict (defaultOptions opts)) ([([] : List Rune)].map bare) = [] := by
    simp [parBlocks, bare, spansBlocks, tokenBlocks, hmk]
  rw [hn] at hp
  have hnodes : nds (parNodes l (measureOf (defaultOptions opts) text) L.length []) = (endNodes : List (Node F)) := rfl
  rw [hnodes] at hp
  unfold leftAlignUniform
  rw [hp, ok_bind]
  have hsc : l.toOptions.scale maxWidth = Arith.ofInt W := by rw [ho]; exact c.scaled
  have hbp : breakPoints rt l.toOptions (endNodes : List (Node F)) (Arith.ofInt W) = .ok none := by
    have hexact := c.exact
    have hWb : |W| ≤ Laws.bound F := by
      have h1 := lineWidth_nonneg (setup_new (env := env) (dict := dict) c.sane)
        (paraSyms (splitterOf env dict (defaultOptions opts)) [[]])
      have h2 := (setup_new (env := env) (dict := dict) c.sane).hyphen_nonneg
      omega
    have z : |(0 : Int)| ≤ Laws.bound F := small 0 (by decide)
    have hforced : Arith.eq (minusInfinity : F) minusInfinity = true := by
      simp [minusInfinity, eq_small (F := F) (-10000) (-10000) (by decide) (by decide)]
    have hfin : Arith.eq (minusInfinity : F) infinity = false := by
      simp [minusInfinity, infinity, eq_small (F := F) (-10000) 10000 (by decide) (by decide)]
    have hratio : adjustmentRatio (Sums.zero : Sums F) (newPenalty zero minusInfinity true) Sums.zero (Arith.ofInt W) = infinity := by
      have := adjustmentRatio_int (F := F) 0 0 0 0 W ⟨newPenalty zero minusInfinity true, none, 0, 0⟩ rfl z z z z
        (by simpa using z) (by simpa using z) hWb (fun _ => ⟨z, by simpa using z⟩) 0 (by simp) (by simpa using hWb)
      rw [if_pos hW, if_neg (by omega)] at this
      exact this
    have hmax : Arith.lt (Arith.maxFloat : F) Arith.maxFloat = false := by
      by_contra hc
      have := Laws.lt_asymm _ _ (by simpa using hc)
      rw [this] at hc; exact hc rfl
    have hinf : Arith.le (infinity : F) l.tolerance = false := Laws.le_of_lt _ _ hu.tol.finite
    simp only [breakPoints, endNodes, findStartNode, newGlue, newPenalty, hforced, if_true, List.drop, breakLoop]
    simp only [newPenalty] at hratio
    simp [hfin, mainLoop, mainLoopOn, rootPoint, hratio, hinf, ok_bind, Node.isForcedBreak, hforced, insertNew, hmax]
  simp only [hsc, hbp, ok_bind]
  exact ⟨_, rfl⟩

/-! ## C56, C62, C49 -/

/-- **C56.** When a space has the width of one blank, the words of a line are separated by exactly one. -/
theorem C56_one_space (c : Call rt env dict opts text 1 l tokens maxWidth W) (hW : 0 < W)
    (hne : ∀ t ∈ tokens, t ≠ []) (h : leftAlignUniform rt env l tokens maxWidth = .ok (some lines, l')) :
    ∀ line ∈ lines, ∃ words e, line = List.intercalate [0x20] words ++ e ∧ (e = [] ∨ e = [0x2D]) ∧ words ≠ [] ∧
      ∀ w ∈ words, w ≠ [] ∧ ∀ r ∈ w, ∃ t ∈ tokens, r ∈ t := by
  have hr := C50_text_kept c hW hne h
  have h0 : tokens ≠ [] := by rintro rfl; rw [align_nil] at h; cases h
  have hj : joined tokens ≠ [] := by
    obtain ⟨t, ts, rfl⟩ := List.exists_cons_of_ne_nil h0
    have := hne t (by simp)
    cases ts <;> simp [joined, this]
  intro line hl
  obtain ⟨p, e, h1, h2, h3, h4, h5⟩ := reflow_spaced hr (spaced_joined tokens hne) hj line hl
  obtain ⟨words, w1, w2, w3⟩ := spaced_words 0x20 p.length p (le_refl _) h4 h3
  refine ⟨words, e, ?_, ?_, w1, fun w hw => ⟨(w2 w hw).1, fun r hr => mem_joined tokens r (h5 _ ((w2 w hw).2 r hr))⟩⟩
  · rw [h1]; exact congrArg (· ++ e) w3
  · rcases h2 with e | e | ⟨_, e⟩
    · exact Or.inl e
    · exact e
    · exact e

/-- **C62.** Every line holds some text of the paragraph, at its start. -/
theorem C62_no_empty_line (c : Call rt env dict opts text n l tokens maxWidth W) (hW : 0 < W)
    (hf : tokens.head? ≠ some []) (h : leftAlignUniform rt env l tokens maxWidth = .ok (some lines, l')) :
    lines ≠ [] ∧ ∀ line ∈ lines, ∃ r rest, line = r :: rest ∧ ∃ t ∈ tokens, r ∈ t := by
  obtain ⟨ls, h1, rfl⟩ := call_lines c hW hf h
  have hl := lossless (env := env) (dict := dict) c.sane
  obtain ⟨g1, g2⟩ := layout_lines h1
  refine ⟨by simpa using g1, ?_⟩
  intro line hline
  obtain ⟨x, hx, rfl⟩ := List.mem_map.mp hline
  obtain ⟨⟨t, r, e⟩, h4⟩ := g2 x hx
  have hmem := h4 (.part t) (by rw [e]; simp)
  have ht : t ≠ [] := by rintro rfl; exact para_full hl tokens hmem
  obtain ⟨a, t', rfl⟩ := List.exists_cons_of_ne_nil ht
  refine ⟨a, t' ++ lineText (List.replicate n 0x20) r ++ x.ending, by simp [Line.text, e, lineText], ?_⟩
  apply mem_joined tokens a
  rw [← para_chars hl]
  unfold chars
  rw [List.mem_flatMap]
  exact ⟨_, hmem, by simp [symCh]⟩

/-- **C49.** A paragraph without ESC is set without ESC: no escape sequence is written. -/
theorem C49_paragraph (c : Call rt env dict opts text n l tokens maxWidth W) (hW : 0 < W)
    (hf : tokens.head? ≠ some []) (hesc : ∀ t ∈ tokens, (0x1B : Rune) ∉ t)
    (h : leftAlignUniform rt env l tokens maxWidth = .ok (some lines, l')) : ∀ line ∈ lines, (0x1B : Rune) ∉ line := by
  obtain ⟨ls, h1, rfl⟩ := call_lines c hW hf h
  have hl := lossless (env := env) (dict := dict) c.sane
  intro line hline hmem
  obtain ⟨x, hx, rfl⟩ := List.mem_map.mp hline
  obtain ⟨g1, f, s, g2, g3⟩ := layout_each h1 x hx
  unfold Line.text at hmem
  rw [List.mem_append] at hmem
  rcases hmem with hm | hm
  · rw [lineText_chars] at hm
    have key : ∀ cs : List Ch, (0x1B : Rune) ∈ chText (List.replicate n 0x20) cs → .rune 0x1B ∈ cs := by
      intro cs
      induction cs with
      | nil => simp [chText]
      | cons c cs ih =>
        cases c with
        | rune r =>
          simp only [chText, List.mem_cons]
          rintro (rfl | h)
          · exact Or.inl rfl
          · exact Or.inr (ih h)
        | gap =>
          simp only [chText, List.mem_append]
          rintro (h | h)
          · have := List.eq_of_mem_replicate h
            exact absurd this (by decide)
          · exact List.mem_cons_of_mem _ (ih h)
    have h3 := key _ hm
    have h4 : .rune 0x1B ∈ chars (paraSyms (splitterOf env dict (defaultOptions opts)) tokens) := by
      unfold chars at h3 ⊢
      rw [List.mem_flatMap] at h3 ⊢
      obtain ⟨s, hs, h⟩ := h3
      exact ⟨s, g1 s hs, h⟩
    rw [para_chars hl] at h4
    obtain ⟨t, ht, h5⟩ := mem_joined tokens _ h4
    exact hesc t ht h5
  · rcases g3 with e | ⟨s', _, e, _⟩
    · rw [e] at hm; cases hm
    · rw [e] at hm
      rcases hyOf_cases (env := env) (dict := dict) (opts := opts) s' with e | e <;> rw [e] at hm <;> simp at hm

end

/-! ## C61 -/

/-- **C61**, when the words of all calls have no escape sequence (see `C61_styled_fails`): a line breaker gives the
same result (lines, error or panic) as a new one, whatever the options, the widths and the numbers. -/
theorem C61_reuse_partial {F : Type} [Arith F] (rt : Runtime) {env : Env} (hd : AsciiDigits env) {dict : Dictionary}
    {opts : List (Opt F)} {l : LineBreaker F} (hu : Used env dict opts l) (tokens : List (List Rune))
    (ht : ∀ t ∈ tokens, EscapeFree t) (maxWidth : F) :
    (leftAlignUniform rt env l tokens maxWidth).map Prod.fst =
      (leftAlignUniform rt env (new env dict opts) tokens maxWidth).map Prod.fst := by
  obtain ⟨h1, h2⟩ := used_twin hd hu
  exact (align_twin h1 rt hd tokens ht h2 (fun a h => by cases h) maxWidth).1

end Verif.Props
