import Verif.Props.AnySafe

/-! # C50, C57, C63 and C112, for any words, widths and histories of calls: the text of the lines -/

set_option linter.unusedSectionVars false

namespace Verif.Props
open Verif.Go Verif.Model Verif.Model.LB Verif.Spec Verif.Spec.Ansi Verif.Spec.LB Verif.Proofs Verif.Proofs.LB

/-! ## Words made of spans -/

section
variable {sp : Splitter} (hl : sp.Lossless)
include hl

theorem word_chars (xs : List Span) : chars (spansSyms sp xs) = (xs.flatMap Span.text).map Ch.rune := by
  refine flatMap_chars _ _ _ (fun x _ => ?_)
  by_cases h : x.text = []
  · rw [h, tokenSyms_nil hl]; rfl
  · exact (token_token hl x.text h).2

theorem word_full {xs : List Span} (hx : xs.flatMap Span.text ≠ []) : Token (spansSyms sp xs) := by
  induction xs with
  | nil => exact absurd rfl hx
  | cons x xs ih =>
    have e : spansSyms sp (x :: xs) = tokenSyms sp x.text ++ spansSyms sp xs := by simp [spansSyms]
    rw [e]
    by_cases h1 : x.text = []
    · rw [h1, tokenSyms_nil hl, List.nil_append]
      refine ih ?_
      simpa [List.flatMap_cons, h1] using hx
    · by_cases h2 : xs.flatMap Span.text = []
      · have h3 : spansSyms sp xs = [] := by
          unfold spansSyms
          rw [List.flatMap_eq_nil_iff] at h2 ⊢
          intro y hy
          rw [h2 y hy, tokenSyms_nil hl]
        rw [h3, List.append_nil]
        exact (token_token hl x.text h1).1
      · exact (token_token hl x.text h1).1.append (ih h2)

theorem words_chars (tks : List (List Span)) : chars (styledSyms sp tks) = joined (tks.map (·.flatMap Span.text)) := by
  induction tks with
  | nil => rfl
  | cons t ts ih =>
    cases ts with
    | nil => exact word_chars hl t
    | cons u us =>
      simp only [styledSyms, List.map_cons, joined]
      rw [chars_append, chars_cons, word_chars hl, ih]
      rfl

/-- The symbols of words with some text. -/
theorem words_shape {tks : List (List Span)} (hne : ∀ xs ∈ tks, xs.flatMap Span.text ≠ []) :
    (styledSyms sp tks).IsChain Adj ∧ .part [] ∉ styledSyms sp tks ∧ (tks ≠ [] → StartsWithPart (styledSyms sp tks)) ∧
      ∀ x ∈ (styledSyms sp tks).getLast?, (∃ t, x = .part t) ∨ x = .mark ∨ x = .hard := by
  induction tks with
  | nil => simp [styledSyms]
  | cons t ts ih =>
    have ht := word_full hl (hne t (by simp))
    have hst : ∀ r, StartsWithPart (spansSyms sp t ++ r) := by
      intro r
      obtain ⟨x, xs, e⟩ := List.exists_cons_of_ne_nil ht.ne
      obtain ⟨u, hu⟩ := ht.head x (by rw [e]; rfl)
      exact ⟨u, xs ++ r, by rw [e, hu]; rfl⟩
    cases ts with
    | nil => exact ⟨ht.chain, ht.full, fun _ => by have := hst []; rwa [List.append_nil] at this, ht.last⟩
    | cons u us =>
      obtain ⟨i1, i2, i3, i4⟩ := ih (fun v hv => hne v (by simp [hv]))
      simp only [styledSyms]
      refine ⟨?_, ?_, fun _ => hst _, ?_⟩
      · rw [List.isChain_append]
        refine ⟨ht.chain, ?_, ?_⟩
        · rw [List.isChain_cons]
          refine ⟨?_, i1⟩
          intro y hy
          obtain ⟨w, r, e⟩ := i3 (by simp)
          rw [e] at hy
          simp at hy
          exact Or.inr (Or.inl ⟨w, hy.symm⟩)
        · intro x hx y hy
          simp at hy
          subst hy
          rcases ht.last x hx with h | h
          · exact Or.inl h
          · exact Or.inr (Or.inr ⟨h, rfl⟩)
      · simp only [List.mem_append, List.mem_cons, reduceCtorEq, false_or, not_or]
        exact ⟨ht.full, i2⟩
      · intro x hx
        obtain ⟨w, r, e⟩ := i3 (by simp)
        refine i4 x ?_
        rw [e] at hx ⊢
        rw [List.getLast?_append_of_ne_nil _ (by simp), List.getLast?_cons_cons] at hx
        exact hx

end

theorem ordered_words (sp : Splitter) (tks : List (List Span)) : Ordered sp (styledSyms sp tks) := by
  have hw : ∀ xs, Ordered sp (spansSyms sp xs) := fun xs => Ordered.flatMap _ _ (fun x _ => ordered_token sp x.text)
  induction tks with
  | nil => exact ⟨by simp [styledSyms], by simp [styledSyms]⟩
  | cons t ts ih =>
    cases ts with
    | nil => exact hw t
    | cons u us =>
      simp only [styledSyms]
      have : Ordered sp [.gap] := ⟨by simp, by simp⟩
      exact (hw t).append (this.append ih)

theorem words_after (sp : Splitter) (tks : List (List Span)) (v : List Rune) (s : Sym)
    (h : [.part v, s] <:+: styledSyms sp tks) : (s = .mark → sp.isMark v = true) ∧ (s = .hard → sp.isHyphen v = true) := by
  have := (ordered_words sp tks).1.infix h
  simp only [List.isChain_cons_cons, After, List.isChain_singleton, and_true] at this
  refine ⟨fun e => ?_, fun e => ?_⟩
  · obtain ⟨w, hw, h⟩ := this.1 e
    cases hw; exact h
  · obtain ⟨w, hw, h⟩ := this.2 e
    cases hw; exact h

theorem words_whole (sp : Splitter) (hb : sp.breakWords = false) (tks : List (List Span)) :
    .soft ∉ styledSyms sp tks ∧ .hard ∉ styledSyms sp tks := by
  have htok : ∀ t, .soft ∉ tokenSyms sp t ∧ .hard ∉ tokenSyms sp t := fun t => para_whole sp hb [t]
  have hw : ∀ xs, .soft ∉ spansSyms sp xs ∧ .hard ∉ spansSyms sp xs := by
    intro xs
    simp only [spansSyms, List.mem_flatMap, not_exists, not_and]
    exact ⟨fun x _ => (htok x.text).1, fun x _ => (htok x.text).2⟩
  induction tks with
  | nil => simp [styledSyms]
  | cons t ts ih =>
    cases ts with
    | nil => exact hw t
    | cons u us =>
      simp only [styledSyms, List.mem_append, List.mem_cons, reduceCtorEq, false_or, not_or]
      exact ⟨⟨(hw t).1, ih.1⟩, (hw t).2, ih.2⟩

/-! ## From symbols to text -/

theorem start_drop {d : List Sym} (h : ∀ t, .part t ∉ d) (r : List Sym) : startLine (d ++ r) = startLine r := by
  induction d with
  | nil => rfl
  | cons s d ih =>
    have ih := ih (fun t ht => h t (by simp [ht]))
    cases s with
    | part t => exact absurd (by simp) (h t)
    | _ => simpa [startLine] using ih

theorem start_set {b : List Sym} (h : StartsSet b) : chars (startLine b) = chars b ∧ ((∀ t, .part t ∉ b) → chars b = []) ∧
    ((∃ t, .part t ∈ b) → ∀ r, chars (startLine (b ++ r)) = chars b ++ chars r) := by
  induction b with
  | nil => exact ⟨rfl, fun _ => rfl, by simp⟩
  | cons s b ih =>
    cases s with
    | part t =>
      refine ⟨rfl, fun hn => absurd (by simp) (hn t), fun _ r => ?_⟩
      rw [List.cons_append, show startLine (.part t :: (b ++ r)) = .part t :: (b ++ r) from rfl, ← List.cons_append, chars_append]
    | gap => exact h.elim
    | _ =>
      all_goals
        obtain ⟨h1, h2, h3⟩ := ih h
        refine ⟨by simpa [startLine, chars_cons, symCh] using h1, fun hn => ?_, fun hp r => ?_⟩
        · rw [chars_cons, h2 (fun t ht => hn t (by simp [ht]))]; rfl
        · have := h3 (by simpa using hp) r
          simpa [startLine, chars_cons, symCh] using this

theorem sym_text {s : Sym} (h1 : ∀ t, s ≠ .part t) (h2 : s ≠ .gap) : symCh s = [] := by
  cases s with
  | part t => exact absurd rfl (h1 t)
  | gap => exact absurd rfl h2
  | _ => rfl

theorem no_gap_end {l : List Sym} (h : ∀ x ∈ (l ++ [Sym.gap]).getLast?, (∃ t, x = .part t) ∨ x = .mark ∨ x = .hard) : False := by
  have := h .gap (by rw [List.getLast?_append]; rfl)
  rcases this with ⟨t, h⟩ | h | h <;> cases h

/-- Lines with all parts of words with some text show this text. -/
theorem fills_reflow {g : List Rune} {hy : Option Sym → List Rune → Prop} {ss : List Sym} {shown : List (List Rune)}
    (h : Fills true g hy ss shown) {inWord : Rune → List Rune → Prop}
    (hh : ∀ s h, hy s h → s ≠ some .soft → h = [])
    (hin : ∀ v r s h, [.part (v ++ [r]), s] <:+: ss → s ≠ .gap → (∀ t, s ≠ .part t) → hy (some s) h → inWord r h)
    (hc : ss.IsChain Adj) (hf : .part [] ∉ ss) (hlast : ∀ x ∈ ss.getLast?, (∃ t, x = .part t) ∨ x = .mark ∨ x = .hard) :
    ((∀ t, .part t ∉ ss) → shown = [[]]) ∧
    ((∃ t, .part t ∈ ss) → ∃ full, (shown = full ∨ shown = full ++ [[]]) ∧
      Reflow g (fun e => e = []) inWord (chars (startLine ss)) full) := by
  induction h with
  | last d b t h1 h2 h3 =>
    have := hh _ _ h3 (by simp)
    subst this
    obtain ⟨s1, s2, s3⟩ := start_set h2
    rw [List.append_nil, lineText_chars]
    constructor
    · intro hn
      rw [s2 (fun t ht => hn t (by simp [ht]))]
      rfl
    · intro _
      refine ⟨_, Or.inl rfl, ?_⟩
      rw [start_drop h1, s1]
      exact .last _
  | @line d b s t rest lines h1 h2 h3 h4 h5 h6 h7 h8 ih =>
    obtain ⟨u, hu⟩ := h7 rfl
    have hp : ∃ t, .part t ∈ b := ⟨u, hu⟩
    obtain ⟨s1, s2, s3⟩ := start_set h2
    refine ⟨fun hn => absurd (by simp [hu]) (hn u), fun _ => ?_⟩
    have e0 : chars (startLine (d ++ b ++ (s.toList ++ rest))) = chars b ++ chars (s.toList ++ rest) := by
      rw [List.append_assoc, start_drop h1, s3 hp]
    rw [e0, lineText_chars]
    obtain ⟨c1, c2, c3⟩ := List.isChain_append.mp hc
    have hlast' : ∀ x ∈ (s.toList ++ rest).getLast?, (∃ t, x = .part t) ∨ x = .mark ∨ x = .hard := by
      intro x hx
      refine hlast x ?_
      rw [List.getLast?_append_of_ne_nil _ (by intro h; rw [h] at hx; cases hx)]
      exact hx
    obtain ⟨i1, i2⟩ := ih (fun v r y h hi => hin v r y h (hi.trans (List.suffix_append _ _).isInfix)) c2
      (fun hm => hf (List.mem_append_right _ hm)) hlast'
    by_cases hr : ∃ t, .part t ∈ s.toList ++ rest
    · obtain ⟨full, e1, e2⟩ := i2 hr
      refine ⟨(chText g (chars b) ++ t) :: full, by rcases e1 with rfl | rfl <;> simp, ?_⟩
      have hgap : ∀ w r, s.toList ++ rest = w ++ .gap :: r → chars w = [] → (∀ t, .part t ∉ w) → s ≠ some .soft →
          Reflow g (fun e => e = []) inWord (chars b ++ chars (s.toList ++ rest)) ((chText g (chars b) ++ t) :: full) := by
        intro w r e hw hwp hs
        have hz : ∃ v r', r = .part v :: r' := by
          cases r with
          | nil =>
            rw [e] at hlast'
            exact (no_gap_end hlast').elim
          | cons z r' =>
            rw [e] at c2
            have := (List.isChain_cons_cons.mp (List.isChain_append.mp c2).2.1).1
            rcases this with ⟨_, h⟩ | ⟨v, h⟩ | ⟨h, _⟩
            · cases h
            · exact ⟨v, r', by rw [h]⟩
            · rcases h with h | h <;> cases h
        obtain ⟨v, r', rfl⟩ := hz
        rw [e, show w ++ .gap :: .part v :: r' = (w ++ [.gap]) ++ .part v :: r' by simp, start_drop (by simpa using hwp)] at e2
        rw [e, chars_append, hw, List.nil_append, chars_cons]
        exact .gap _ t (hh _ _ h6 hs) e2
      cases s with
      | none =>
        rcases h5 rfl with rfl | ⟨r, rfl⟩
        · simp at hr
        · exact hgap [] r rfl rfl (by simp) (by simp)
      | some s =>
        have hsp : ∀ t, s ≠ .part t := fun t e => h3 t (by rw [e])
        have hsg : s ≠ .gap := fun e => h4 (by rw [e])
        have hsc : symCh s = [] := sym_text hsp hsg
        cases rest with
        | nil =>
          obtain ⟨t, ht⟩ := hr
          simp at ht
          exact absurd ht.symm (hsp t)
        | cons z r =>
          simp only [Option.toList_some, List.cons_append, List.nil_append] at c2 hgap e2 c3 ⊢
          rcases (List.isChain_cons_cons.mp c2).1 with ⟨v, h⟩ | ⟨v, rfl⟩ | ⟨hm, rfl⟩
          · exact absurd h (hsp v)
          · -- inside a word
            have hv : v ≠ [] := by rintro rfl; exact hf (by simp)
            obtain ⟨a, v', rfl⟩ := List.exists_cons_of_ne_nil hv
            obtain ⟨q, y, hq⟩ : ∃ q y, b = q ++ [y] := by
              rcases List.eq_nil_or_concat b with e | ⟨q, y, e⟩
              · rw [e] at hu; cases hu
              · exact ⟨q, y, by rw [e, List.concat_eq_append]⟩
            obtain ⟨w, rfl⟩ : ∃ w, y = .part w := by
              rcases c3 y (by rw [hq]; simp) s (by simp) with h | ⟨t, h⟩ | ⟨_, h⟩
              · exact h
              · exact absurd h (hsp t)
              · exact absurd h hsg
            obtain ⟨w', c, rfl⟩ : ∃ w' c, w = w' ++ [c] := by
              rcases List.eq_nil_or_concat w with e | ⟨q, y, e⟩
              · exfalso; exact hf (by rw [hq, e]; simp)
              · exact ⟨q, y, by rw [e, List.concat_eq_append]⟩
            have e3 : chars b = chars q ++ w'.map Ch.rune ++ [.rune c] := by
              rw [hq, chars_append, chars_cons]
              simp [symCh, chars]
            have e4 : startLine (s :: .part (a :: v') :: r) = .part (a :: v') :: r := by
              cases s with
              | part t => exact absurd rfl (hsp t)
              | _ => rfl
            have e5 : chars (.part (a :: v') :: r) = .rune a :: (v'.map Ch.rune ++ chars r) := by
              rw [chars_cons]; simp [symCh]
            rw [e4, e5] at e2
            rw [chars_cons, hsc, List.nil_append, e5, e3]
            have hxi : inWord c t := by
              refine hin w' c s t ⟨d ++ q, .part (a :: v') :: r, ?_⟩ hsg hsp h6
              rw [hq]; simp
            have := Reflow.inside (g := g) (atGap := fun e => e = []) (chars q ++ w'.map Ch.rune) c a t hxi e2
            simpa using this
          · have hns : s ≠ .soft := by rcases hm with rfl | rfl <;> simp
            refine hgap [s] r rfl ?_ ?_ ?_
            · rw [chars_cons, hsc]; rfl
            · intro t ht
              simp at ht
              exact hsp t ht.symm
            · intro e; exact hns (Option.some.inj e)
    · have hr : ∀ t, .part t ∉ s.toList ++ rest := fun t ht => hr ⟨t, ht⟩
      have el := i1 hr
      have hs : chars (s.toList ++ rest) = [] ∧ s ≠ some .soft := by
        cases s with
        | none =>
          rcases h5 rfl with rfl | ⟨r, rfl⟩
          · exact ⟨rfl, by simp⟩
          · exfalso
            cases r with
            | nil => exact no_gap_end (l := []) hlast'
            | cons z r =>
              rcases (List.isChain_cons_cons.mp c2).1 with ⟨_, h⟩ | ⟨v, rfl⟩ | ⟨h, _⟩
              · cases h
              · exact hr v (by simp)
              · rcases h with h | h <;> cases h
        | some s =>
          have hsp : ∀ t, s ≠ .part t := fun t e => h3 t (by rw [e])
          have hsg : s ≠ .gap := fun e => h4 (by rw [e])
          have hsc : symCh s = [] := sym_text hsp hsg
          cases rest with
          | nil =>
            refine ⟨by rw [Option.toList_some, List.append_nil, chars_cons, hsc]; rfl, ?_⟩
            intro e
            cases e
            rcases hlast' .soft rfl with ⟨t, h⟩ | h | h <;> cases h
          | cons z r =>
            exfalso
            simp only [Option.toList_some, List.cons_append, List.nil_append] at c2 hlast' hr
            rcases (List.isChain_cons_cons.mp c2).1 with ⟨v, h⟩ | ⟨v, rfl⟩ | ⟨hm, rfl⟩
            · exact hsp v h
            · exact hr v (by simp)
            · cases r with
              | nil => exact no_gap_end (l := [s]) hlast'
              | cons z r =>
                rcases (List.isChain_cons_cons.mp (List.isChain_cons_cons.mp c2).2).1 with ⟨_, h⟩ | ⟨v, rfl⟩ | ⟨h, _⟩
                · cases h
                · exact hr v (by simp)
                · rcases h with h | h <;> cases h
      have ht := hh _ _ h6 hs.2
      subst ht
      refine ⟨[chText g (chars b)], Or.inr (by rw [el]; simp), ?_⟩
      rw [hs.1, List.append_nil]
      exact .last _

/-! ## The text of the lines -/

section
variable {F : Type} [Arith F] [Laws F] {rt : Runtime} {env : Env} {dict : Dictionary} {opts : List (Opt F)} {l l' : LineBreaker F}
  {seqs : List (List Rune)} {tokens : List (List Rune)} {tks : List (List Span)} {maxWidth : F} {lines : List (List Rune)}

/-- The penalty of hyphenation points differs from the ones of other places and of the end of the paragraph. -/
def OwnPlace (o : Options F) : Prop := ∀ k ∈ [0, 200, 400, -10000], Arith.eq (Arith.ofInt k : F) o.hyphenPenalty = false

theorem own_soft {o : Options F} (ho : OwnPlace o) {s : Option Sym} {h : List Rune} (hm : mayEnd o s h) : softEnd o s h := by
  rcases hm with ht | ⟨ht, hr, x, hx, he⟩
  · exact Or.inl ht
  · have no : ∀ k ∈ [0, 200, 400, -10000], x ≠ Arith.ofInt k := by
      rintro k hk rfl
      rw [ho k hk] at he
      cases he
    refine Or.inr ⟨ht, hr, ?_⟩
    cases s with
    | none => rcases hx with hx | hx <;> exact absurd hx (no _ (by simp))
    | some s =>
      cases s with
      | soft => rfl
      | hard => exact absurd hx (no _ (by simp))
      | mark => exact absurd hx (no _ (by simp))
      | gap => rcases hx with hx | hx <;> exact absurd hx (no _ (by simp))
      | part t => rcases hx with hx | hx <;> exact absurd hx (no _ (by simp))

theorem full_lines (hu : AnyUsed env dict opts l seqs) (hf : List.Forall₂ (Found rt env) tokens tks)
    (hz : Arith.toInt ((defaultOptions opts).downScale (Arith.ofInt 0 : F)) ≤ 0)
    (h1 : ∀ xs ∈ tks.head?, spansSyms (splitterOf env dict (defaultOptions opts)) xs ≠ [])
    (hp : Within (defaultOptions opts).hyphenPenalty 10000) (ho : OwnPlace (defaultOptions opts))
    (hb : Arith.le (defaultOptions opts).tolerance (Arith.ofInt 50) = true)
    (h : leftAlignUniform rt env l tokens maxWidth = .ok (some lines, l')) :
    ∃ shown, List.Forall₂ (Sprinkled (seqs ++ seqsOf tks)) shown lines ∧
      Fills true (spacesBetween (defaultOptions opts)) (fun s h => softEnd (defaultOptions opts) s h ∧ mustEnd (defaultOptions opts) s h)
        (styledSyms (splitterOf env dict (defaultOptions opts)) tks) shown ∧
      ((∀ p, tokensLoop rt env l tokens l.attrList = .ok p → ∀ r a b,
          breakPoints rt l.toOptions p.1 (l.scale maxWidth) = .ok (some (r ++ [a, b])) → BoxFrom p.1 a.position) →
        ∃ t line, .part t ∈ styledSyms (splitterOf env dict (defaultOptions opts)) tks ∧ shown.getLast? = some line ∧ t <:+: line) := by
  have eo := used_options hu
  have e1 : l.renderHyphens = (defaultOptions opts).renderHyphens := by rw [eo]; rfl
  have e2 : l.hyphenPenalty = (defaultOptions opts).hyphenPenalty := by rw [eo]; rfl
  have hne : tokens ≠ [] := by
    rintro rfl
    rw [align_nil] at h
    cases h
  obtain ⟨shown, s1, s2, _, s4⟩ := align_fills (full := true) hu hf hz h (fun _ => by
    refine ⟨by rw [e2, Laws.eq_comm]; exact ho (-10000) (by simp), ?_⟩
    intro p hp1 chain hc
    obtain ⟨hcost, hall, hearly⟩ := safe_nodes hu hf hne h1 hp hb hp1
    obtain ⟨⟨ns, en, _⟩, _⟩ := made_tokens (used_describes hu) hf hne hp1
    obtain ⟨r, r1, r2⟩ := break_ok rt hcost (ideal := l.scale maxWidth) (u := ns ++ [newGlue zero infinity zero]) hall
      (by rw [en]; simp [endNodes]) hearly
    rw [r1] at hc
    cases hc
    exact (r2 chain rfl).1)
  have e := used_gap hu
  rw [e] at s2
  refine ⟨shown, s1, s2.imp (fun s h hm => ⟨own_soft ho (used_mayEnd hu s h hm.1), ?_⟩), s4⟩
  have := hm.2 rfl
  unfold mustEnd at this ⊢
  rwa [← e1, ← e2]

/-- **C112.** When the first word has a part, there is a part of a word on each line, the last one possibly excepted; and
lines that end where a word is cut have a hyphen, if hyphens are rendered. -/
theorem C112_full (hu : AnyUsed env dict opts l seqs) (hf : List.Forall₂ (Found rt env) tokens tks)
    (hz : Arith.toInt ((defaultOptions opts).downScale (Arith.ofInt 0 : F)) ≤ 0)
    (h1 : ∀ xs ∈ tks.head?, spansSyms (splitterOf env dict (defaultOptions opts)) xs ≠ [])
    (hp : Within (defaultOptions opts).hyphenPenalty 10000) (ho : OwnPlace (defaultOptions opts))
    (hb : Arith.le (defaultOptions opts).tolerance (Arith.ofInt 50) = true)
    (h : leftAlignUniform rt env l tokens maxWidth = .ok (some lines, l')) :
    ∃ shown, List.Forall₂ (Sprinkled (seqs ++ seqsOf tks)) shown lines ∧
      Fills true (spacesBetween (defaultOptions opts)) (fun s h => softEnd (defaultOptions opts) s h ∧ mustEnd (defaultOptions opts) s h)
        (styledSyms (splitterOf env dict (defaultOptions opts)) tks) shown := by
  obtain ⟨shown, s1, s2, _⟩ := full_lines hu hf hz h1 hp ho hb h
  exact ⟨shown, s1, s2⟩

theorem words_end (sp : Splitter) {tks : List (List Span)} (h : ∀ xs ∈ tks.getLast?, spansSyms sp xs ≠ []) :
    ∀ x ∈ (styledSyms sp tks).getLast?, (∃ t, x = .part t) ∨ x = .mark ∨ x = .hard := by
  induction tks with
  | nil => intro x hx; cases hx
  | cons t ts ih =>
    cases ts with
    | nil =>
      intro x hx
      have hx : (spansSyms sp t).getLast? = some x := hx
      have h1 : x ≠ .gap := by
        rintro rfl
        exact spans_nogap sp t (List.mem_of_getLast? hx)
      have h2 : x ≠ .soft := by
        rintro rfl
        exact (entire_styled sp [t]).2 hx
      cases x with
      | part t => exact Or.inl ⟨t, rfl⟩
      | gap => exact absurd rfl h1
      | soft => exact absurd rfl h2
      | hard => exact Or.inr (Or.inr rfl)
      | mark => exact Or.inr (Or.inl rfl)
    | cons u us =>
      have h' : ∀ xs ∈ (u :: us).getLast?, spansSyms sp xs ≠ [] := fun xs hx => h xs (by rw [List.getLast?_cons_cons]; exact hx)
      have hne : styledSyms sp (u :: us) ≠ [] := by
        cases us with
        | nil => exact h' u (by simp)
        | cons v vs =>
          intro e
          have : spansSyms sp u ++ .gap :: styledSyms sp (v :: vs) = [] := e
          simp at this
      intro x hx
      refine ih h' x ?_
      have hx : (spansSyms sp t ++ .gap :: styledSyms sp (u :: us)).getLast? = some x := hx
      rw [List.getLast?_append_of_ne_nil _ (by simp), List.getLast?_cons_of_ne_nil hne] at hx
      exact hx

theorem words_start (sp : Splitter) {tks : List (List Span)} (htk : tks ≠ []) (h : ∀ xs ∈ tks.head?, spansSyms sp xs ≠ []) :
    ∃ t r, styledSyms sp tks = .part t :: r := by
  cases tks with
  | nil => exact absurd rfl htk
  | cons xs xss =>
    obtain ⟨t, r, e⟩ := (spans_start sp xs).resolve_right (h xs (by simp))
    cases xss with
    | nil => exact ⟨t, r, e⟩
    | cons ys yss => exact ⟨t, _, by rw [styledSyms, e]; rfl; simp⟩

/-- There is a part of a word on the last line. -/
theorem full_last [MoreLaws F] (hu : AnyUsed env dict opts l seqs) (hf : List.Forall₂ (Found rt env) tokens tks) (htk : tks ≠ [])
    (h1 : ∀ xs ∈ tks.head?, spansSyms (splitterOf env dict (defaultOptions opts)) xs ≠ [])
    (h2 : ∀ xs ∈ tks.getLast?, spansSyms (splitterOf env dict (defaultOptions opts)) xs ≠ [])
    (hp : Within (defaultOptions opts).hyphenPenalty 10000) (ho : OwnPlace (defaultOptions opts))
    (hb : Arith.le (defaultOptions opts).tolerance (Arith.ofInt 50) = true) {p : List (Node F) × AState}
    (hp1 : tokensLoop rt env l tokens l.attrList = .ok p) {r : List (Point F)} {a b : Point F}
    (hc : breakPoints rt l.toOptions p.1 (l.scale maxWidth) = .ok (some (r ++ [a, b]))) : BoxFrom p.1 a.position := by
  have e2 : l.hyphenPenalty = (defaultOptions opts).hyphenPenalty := by rw [used_options hu]; rfl
  have hts : tokens ≠ [] := by
    rintro rfl
    cases hf
    exact htk rfl
  obtain ⟨hcost, hall, _⟩ := safe_nodes hu hf hts h1 hp hb hp1
  obtain ⟨⟨ns, en, T0, m1, m2, m3, m4, m5, m6, m7, m8⟩, _⟩ := made_tokens (used_describes hu) hf hts hp1
  have c1 : (styledSyms (splitterOf env dict (defaultOptions opts)) tks).IsChain Led :=
    (ordered_words _ tks).1.imp fun a b hab hm => by
      rcases hm with hm | hm
      · obtain ⟨v, hv, _⟩ := hab.1 hm; exact ⟨v, hv⟩
      · obtain ⟨v, hv, _⟩ := hab.2 hm; exact ⟨v, hv⟩
  have c4 := words_end _ h2
  obtain ⟨t, ss, e⟩ := words_start _ htk h1
  rw [← m2] at c1 c4 e
  have hbox : ∃ x ∈ T0, x.1.kind = .box := by
    obtain ⟨x, hx, hx2⟩ := List.mem_filterMap.mp (show Sym.part t ∈ symsOf T0 by rw [e]; simp)
    refine ⟨x, hx, ?_⟩
    have := m3 x hx
    unfold NodeOf at this
    cases hk : x.1.kind with
    | box => rfl
    | glue =>
      simp only [hk, hx2] at this
      rcases this with ⟨h, _⟩ | ⟨h, _⟩ <;> cases h
    | penalty =>
      simp only [hk] at this
      exact absurd hx2 (this.1 t)
  have hun : ∀ x ∈ T0, x.1.isForcedBreak = false := by
    intro x hx
    cases hx1 : x.1.isForcedBreak with
    | false => rfl
    | true =>
      have hx2 := (m6 x hx hx1).2
      have h3 : Arith.eq l.hyphenPenalty minusInfinity = false := by rw [e2, Laws.eq_comm]; exact ho (-10000) (by simp)
      unfold Node.isForcedBreak at hx1
      rw [hx2, h3] at hx1
      simp at hx1
  obtain ⟨g, ht⟩ := tally_of m3 m4 hun m7 m8 c1 c4 hbox
  have eN : (T0 ++ endTags).map Prod.fst = p.1.map strip := by
    rw [en]
    simp [m1, endTags, endNodes]
    exact ⟨rfl, rfl⟩
  rw [eN] at ht
  rw [← breakPoints_strip] at hc
  have := last_box rt hcost ht (u := (ns ++ [newGlue zero infinity zero]).map strip) (by rw [en]; simp [endNodes]; rfl) (by
      obtain ⟨x, hx, hk⟩ := hbox
      obtain ⟨i, hi, rfl⟩ := List.getElem_of_mem hx
      refine ⟨i, T0[i].1, by omega, ?_, hk⟩
      rw [← eN, List.getElem?_map, List.getElem?_append_left hi, List.getElem?_eq_getElem hi]
      rfl) (by
      intro n hn
      obtain ⟨m, hm, rfl⟩ := List.mem_map.mp hn
      exact hall m hm) hc rfl
  obtain ⟨k, y, k1, k2, k3⟩ := this
  rw [List.getElem?_map] at k2
  cases hk : p.1[k]? with
  | none => rw [hk] at k2; cases k2
  | some z =>
    rw [hk] at k2
    cases k2
    exact ⟨k, z, k1, hk, k3⟩

/-- Where a word may be cut, and what is added there: after a mark; if words may be cut, after a hyphen too, or elsewhere,
where a hyphen is added if hyphens are rendered. -/
def CutAfter (env : Env) (o : Options F) (r : Rune) (e : List Rune) : Prop :=
  (e = [] ∧ (IsMark env r ∨ (o.wordBreak = true ∧ isHyphenRune r = true))) ∨
    (o.wordBreak = true ∧ e = if o.renderHyphens then [0x2D] else [])

/-- What is added where a line ends inside a word. -/
theorem cuts_after (hn : Arith.eq (defaultOptions opts).hyphenPenalty (defaultOptions opts).hyphenPenalty = true)
    (v : List Rune) (r : Rune) (s : Sym) (t : List Rune)
    (hi : [.part (v ++ [r]), s] <:+: styledSyms (splitterOf env dict (defaultOptions opts)) tks) (hg : s ≠ .gap)
    (hsp : ∀ t, s ≠ .part t) (h : softEnd (defaultOptions opts) (some s) t ∧ mustEnd (defaultOptions opts) (some s) t) :
    CutAfter env (defaultOptions opts) r t := by
  obtain ⟨hs, hm⟩ := h
  have hmem : s ∈ styledSyms (splitterOf env dict (defaultOptions opts)) tks := hi.subset (by simp)
  obtain ⟨a1, a2⟩ := words_after _ tks _ s hi
  have hwb : (s = .soft ∨ s = .hard) → (defaultOptions opts).wordBreak = true := by
    intro hs
    cases hw : (defaultOptions opts).wordBreak with
    | true => rfl
    | false =>
      obtain ⟨w1, w2⟩ := words_whole (splitterOf env dict (defaultOptions opts)) hw tks
      rcases hs with rfl | rfl
      · exact absurd hmem w1
      · exact absurd hmem w2
  cases s with
  | part t => exact absurd rfl (hsp t)
  | gap => exact absurd rfl hg
  | soft =>
    refine Or.inr ⟨hwb (Or.inl rfl), ?_⟩
    cases hrh : (defaultOptions opts).renderHyphens with
    | true => simpa using hm rfl hrh hn
    | false =>
      rcases hs with hs | ⟨_, hs, _⟩
      · simpa using hs
      · rw [hrh] at hs; cases hs
  | mark =>
    rcases hs with rfl | ⟨_, _, hs⟩
    · refine Or.inl ⟨rfl, Or.inl ?_⟩
      obtain ⟨r', e, hm⟩ := (C06_isPunctuation_iff env _).mp (a1 rfl)
      have : r = r' := by
        have := congrArg List.getLast? e
        simpa using this
      rw [this]; exact hm
    · cases hs
  | hard =>
    rcases hs with rfl | ⟨_, _, hs⟩
    · refine Or.inl ⟨rfl, Or.inr ⟨hwb (Or.inr rfl), ?_⟩⟩
      have hh : isHyphen (v ++ [r]) = true := a2 rfl
      unfold isHyphen at hh
      split at hh
      · cases hh
      · have hv : v = [] := by
          have : (v ++ [r]).length = 1 := by simpa using ‹¬ (v ++ [r]).length ≠ 1›
          simpa using this
        subst hv
        simpa using hh
    · cases hs

/-- **C50, C57, C63.** Whatever the measurer, the width, the calls before and the words (with some text each): the lines
hold, once sequences are taken out, the text of the words, in order, neither more nor less. A line ends between two words,
where it replaces the space, or inside a word. There is no blank line. -/
theorem C50_any [MoreLaws F] (hu : AnyUsed env dict opts l seqs) (hf : List.Forall₂ (Found rt env) tokens tks)
    (hz : Arith.toInt ((defaultOptions opts).downScale (Arith.ofInt 0 : F)) ≤ 0)
    (hl : (splitterOf env dict (defaultOptions opts)).Lossless) (hne : ∀ xs ∈ tks, xs.flatMap Span.text ≠ [])
    (hp : Within (defaultOptions opts).hyphenPenalty 10000) (ho : OwnPlace (defaultOptions opts))
    (hn : Arith.eq (defaultOptions opts).hyphenPenalty (defaultOptions opts).hyphenPenalty = true)
    (hb : Arith.le (defaultOptions opts).tolerance (Arith.ofInt 50) = true)
    (h : leftAlignUniform rt env l tokens maxWidth = .ok (some lines, l')) :
    ∃ shown, List.Forall₂ (Sprinkled (seqs ++ seqsOf tks)) shown lines ∧
      Reflow (spacesBetween (defaultOptions opts)) (fun e => e = []) (CutAfter env (defaultOptions opts))
        (joined (tks.map (·.flatMap Span.text))) shown := by
  have htk : tks ≠ [] := by
    rintro rfl
    cases hf
    rw [align_nil] at h
    cases h
  obtain ⟨shown, s1, s2, s4⟩ := full_lines hu hf hz
    (fun xs hx => text_parts hl (hne xs (List.mem_of_mem_head? hx))) hp ho hb h
  obtain ⟨c1, c2, c3, c4⟩ := words_shape hl hne
  obtain ⟨t, r, e⟩ := c3 htk
  obtain ⟨_, hr⟩ := fills_reflow (inWord := CutAfter env (defaultOptions opts)) s2 (by
      rintro s t ⟨ht | ⟨_, _, ht⟩, _⟩ hs
      · exact ht
      · exact absurd ht hs) (cuts_after hn) c1 c2 c4
  obtain ⟨full, f1, f2⟩ := hr ⟨t, by rw [e]; simp⟩
  have f3 : shown = full := by
    refine f1.resolve_right fun f1 => ?_
    obtain ⟨t, line, t1, t2, t3⟩ := s4 (fun p hp1 r a b hc => full_last hu hf htk (fun xs hx => text_parts hl (hne xs (List.mem_of_mem_head? hx)))
      (fun xs hx => text_parts hl (hne xs (List.mem_of_getLast? hx))) hp ho hb hp1 hc)
    rw [f1, List.getLast?_append] at t2
    simp at t2
    subst t2
    rw [List.infix_nil] at t3
    rw [t3] at t1
    exact c2 t1
  subst f3
  refine ⟨shown, s1, ?_⟩
  rw [← words_chars hl]
  rwa [e] at f2 ⊢

theorem fills_parts {g : List Rune} {hy : Option Sym → List Rune → Prop} {ss : List Sym} {shown : List (List Rune)}
    (h : Fills true g hy ss shown) {P : List Rune → Prop} (hss : ∀ t, .part t ∈ ss → P t)
    (hl : ∃ t line, P t ∧ shown.getLast? = some line ∧ t <:+: line) :
    shown ≠ [] ∧ ∀ line ∈ shown, ∃ t, P t ∧ t <:+: line := by
  induction h with
  | last d b t h1 h2 h3 =>
    refine ⟨by simp, ?_⟩
    intro line hm
    obtain ⟨t, line', t1, t2, t3⟩ := hl
    simp at t2 hm
    rw [hm, t2]
    exact ⟨t, t1, t3⟩
  | @line d b s t rest lines h1 h2 h3 h4 h5 h6 h7 h8 ih =>
    refine ⟨by simp, ?_⟩
    have hne : lines ≠ [] := by
      generalize s.toList ++ rest = w at h8
      cases h8 <;> simp
    rw [List.getLast?_cons_of_ne_nil hne] at hl
    obtain ⟨_, i2⟩ := ih (fun t ht => hss t (List.mem_append_right _ ht)) hl
    intro line hm
    rcases List.mem_cons.mp hm with rfl | hm
    · obtain ⟨u, hu⟩ := h7 rfl
      exact ⟨u, hss u (by simp [hu]), (part_infix hu).trans (List.prefix_append _ _).isInfix⟩
    · exact i2 line hm

theorem part_chars {ss : List Sym} {t : List Rune} (h : .part t ∈ ss) : t.map Ch.rune <:+: chars ss := by
  obtain ⟨a, b, rfl⟩ := List.append_of_mem h
  rw [chars_append, chars_cons]
  exact ⟨chars a, chars b, by simp [symCh]⟩

/-- The runes of a text. -/
def runeOf : Ch → Option Rune
  | .rune r => some r
  | _ => none

theorem token_nil {sp : Splitter} (hl : sp.Lossless) : tokenSyms sp [] = [] := by
  have hm := hl.marks []
  have : sp.marks [] = [] := by
    cases e : sp.marks [] with
    | nil => rfl
    | cons y ys =>
      rw [e] at hm
      have := hm.1
      simp at this
      exact absurd (by simp [this.1]) hm.2
  unfold tokenSyms
  rw [this]
  rfl

theorem no_empty_parts {sp : Splitter} (hl : sp.Lossless) (tks : List (List Span)) : .part [] ∉ styledSyms sp tks := by
  have one : ∀ xs : List Span, .part [] ∉ spansSyms sp xs := by
    intro xs hx
    obtain ⟨x, _, ht⟩ := List.mem_flatMap.mp hx
    by_cases h0 : x.text = []
    · rw [h0, token_nil hl] at ht
      cases ht
    · exact (token_token hl x.text h0).1.full ht
  induction tks with
  | nil => intro h; cases h
  | cons xs tks ih =>
    cases tks with
    | nil => exact one xs
    | cons ys tks =>
      intro h
      have h : Sym.part [] ∈ spansSyms sp xs ++ .gap :: styledSyms sp (ys :: tks) := h
      rcases List.mem_append.mp h with h | h
      · exact one xs h
      · rcases List.mem_cons.mp h with h | h
        · cases h
        · exact ih h

theorem part_word {sp : Splitter} (hl : sp.Lossless) {tks : List (List Span)} {t : List Rune} (h : .part t ∈ styledSyms sp tks) :
    ∃ xs ∈ tks, t <:+: xs.flatMap Span.text := by
  have one : ∀ xs : List Span, .part t ∈ spansSyms sp xs → t <:+: xs.flatMap Span.text := by
    intro xs hx
    obtain ⟨x, hx, ht⟩ := List.mem_flatMap.mp hx
    have h1 : t <:+: x.text := by
      by_cases h0 : x.text = []
      · rw [h0, token_nil hl] at ht
        cases ht
      · have h2 := part_chars ht
        rw [(token_token hl x.text h0).2] at h2
        obtain ⟨a, b, e⟩ := h2
        have e1 : ∀ y : List Rune, (y.map Ch.rune).filterMap runeOf = y := by
          intro y
          induction y with
          | nil => rfl
          | cons r y ih => simp [runeOf] at ih ⊢; exact ih
        have := congrArg (List.filterMap runeOf) e
        rw [List.filterMap_append, List.filterMap_append, e1, e1] at this
        exact ⟨_, _, this⟩
    obtain ⟨a, b, e⟩ := List.append_of_mem hx
    rw [e, List.flatMap_append, List.flatMap_cons]
    exact h1.trans ⟨a.flatMap Span.text, b.flatMap Span.text, by simp⟩
  induction tks with
  | nil => cases h
  | cons xs tks ih =>
    cases tks with
    | nil => exact ⟨xs, by simp, one xs h⟩
    | cons ys tks =>
      have h : Sym.part t ∈ spansSyms sp xs ++ .gap :: styledSyms sp (ys :: tks) := h
      rcases List.mem_append.mp h with h | h
      · exact ⟨xs, by simp, one xs h⟩
      · rcases List.mem_cons.mp h with h | h
        · cases h
        · obtain ⟨zs, h1, h2⟩ := ih h
          exact ⟨zs, by simp [h1], h2⟩

/-- **C112**, when the first word and the last one have a part: each line, the last one included, shows a part of a word. -/
theorem C112_every [MoreLaws F] (hu : AnyUsed env dict opts l seqs) (hf : List.Forall₂ (Found rt env) tokens tks)
    (hz : Arith.toInt ((defaultOptions opts).downScale (Arith.ofInt 0 : F)) ≤ 0)
    (h1 : ∀ xs ∈ tks.head?, spansSyms (splitterOf env dict (defaultOptions opts)) xs ≠ [])
    (h2 : ∀ xs ∈ tks.getLast?, spansSyms (splitterOf env dict (defaultOptions opts)) xs ≠ [])
    (hp : Within (defaultOptions opts).hyphenPenalty 10000) (ho : OwnPlace (defaultOptions opts))
    (hb : Arith.le (defaultOptions opts).tolerance (Arith.ofInt 50) = true)
    (h : leftAlignUniform rt env l tokens maxWidth = .ok (some lines, l')) :
    ∃ shown, List.Forall₂ (Sprinkled (seqs ++ seqsOf tks)) shown lines ∧
      Fills true (spacesBetween (defaultOptions opts)) (fun s h => softEnd (defaultOptions opts) s h ∧ mustEnd (defaultOptions opts) s h)
        (styledSyms (splitterOf env dict (defaultOptions opts)) tks) shown ∧ shown ≠ [] ∧
      ∀ line ∈ shown, ∃ t, .part t ∈ styledSyms (splitterOf env dict (defaultOptions opts)) tks ∧ t <:+: line := by
  have htk : tks ≠ [] := by
    rintro rfl
    cases hf
    rw [align_nil] at h
    cases h
  obtain ⟨shown, s1, s2, s4⟩ := full_lines hu hf hz h1 hp ho hb h
  obtain ⟨f1, f2⟩ := fills_parts s2 (fun t ht => ht) (s4 (fun p hp1 r a b hc => full_last hu hf htk h1 h2 hp ho hb hp1 hc))
  exact ⟨shown, s1, s2, f1, f2⟩

/-- **C62**, for any words, the first and the last one with some text, any measurer, width, and calls before: each line
holds some text of one of the words. -/
theorem C62_any [MoreLaws F] (hu : AnyUsed env dict opts l seqs) (hf : List.Forall₂ (Found rt env) tokens tks)
    (hz : Arith.toInt ((defaultOptions opts).downScale (Arith.ofInt 0 : F)) ≤ 0)
    (hl : (splitterOf env dict (defaultOptions opts)).Lossless)
    (h1 : ∀ xs ∈ tks.head?, xs.flatMap Span.text ≠ []) (h2 : ∀ xs ∈ tks.getLast?, xs.flatMap Span.text ≠ [])
    (hp : Within (defaultOptions opts).hyphenPenalty 10000) (ho : OwnPlace (defaultOptions opts))
    (hb : Arith.le (defaultOptions opts).tolerance (Arith.ofInt 50) = true)
    (h : leftAlignUniform rt env l tokens maxWidth = .ok (some lines, l')) :
    lines ≠ [] ∧ ∃ shown, List.Forall₂ (Sprinkled (seqs ++ seqsOf tks)) shown lines ∧
      ∀ line ∈ shown, ∃ t, t ≠ [] ∧ t <:+: line ∧ ∃ xs ∈ tks, t <:+: xs.flatMap Span.text := by
  obtain ⟨shown, s1, _, s2, s3⟩ := C112_every hu hf hz (fun xs hx => text_parts hl (h1 xs hx)) (fun xs hx => text_parts hl (h2 xs hx))
    hp ho hb h
  refine ⟨?_, shown, s1, fun line hm => ?_⟩
  · rintro rfl
    cases s1
    exact s2 rfl
  · obtain ⟨t, t1, t2⟩ := s3 line hm
    refine ⟨t, ?_, t2, part_word hl t1⟩
    rintro rfl
    exact no_empty_parts hl tks t1

theorem _root_.Verif.Spec.LB.Reflow.imp {g : List Rune} {atGap atGap' : List Rune → Prop} {inWord inWord' : Rune → List Rune → Prop}
    (h1 : ∀ e, atGap e → atGap' e) (h2 : ∀ r e, inWord r e → inWord' r e) {cs : List Ch} {ls : List (List Rune)}
    (h : Reflow g atGap inWord cs ls) : Reflow g atGap' inWord' cs ls := by
  induction h with
  | last p => exact .last p
  | gap p e h _ ih => exact .gap p e (h1 e h) ih
  | inside p r r' e h _ ih => exact .inside p r r' e (h2 r e h) ih

/-- **C57**, for any words and a penalty of hyphens of its own: lines that end between two words have nothing added; the ones
that end inside a word have a hyphen added, unless they end right after a punctuation mark or an explicit hyphen. -/
theorem C57_any_partial [MoreLaws F] (hu : AnyUsed env dict opts l seqs) (hf : List.Forall₂ (Found rt env) tokens tks)
    (hz : Arith.toInt ((defaultOptions opts).downScale (Arith.ofInt 0 : F)) ≤ 0)
    (hl : (splitterOf env dict (defaultOptions opts)).Lossless) (hne : ∀ xs ∈ tks, xs.flatMap Span.text ≠ [])
    (hp : Within (defaultOptions opts).hyphenPenalty 10000) (ho : OwnPlace (defaultOptions opts))
    (hn : Arith.eq (defaultOptions opts).hyphenPenalty (defaultOptions opts).hyphenPenalty = true)
    (hb : Arith.le (defaultOptions opts).tolerance (Arith.ofInt 50) = true) (hr : (defaultOptions opts).renderHyphens = true)
    (h : leftAlignUniform rt env l tokens maxWidth = .ok (some lines, l')) :
    ∃ shown, List.Forall₂ (Sprinkled (seqs ++ seqsOf tks)) shown lines ∧
      Reflow (spacesBetween (defaultOptions opts)) (fun e => e = [])
        (fun r e => e = [0x2D] ∨ (e = [] ∧ (IsMark env r ∨ isHyphenRune r = true)))
        (joined (tks.map (·.flatMap Span.text))) shown := by
  obtain ⟨shown, s1, s3⟩ := C50_any hu hf hz hl hne hp ho hn hb h
  refine ⟨shown, s1, s3.imp (fun _ h => h) ?_⟩
  rintro r e (⟨h1, h2 | ⟨_, h2⟩⟩ | ⟨_, h2⟩)
  · exact Or.inr ⟨h1, Or.inl h2⟩
  · exact Or.inr ⟨h1, Or.inr h2⟩
  · rw [hr] at h2; exact Or.inl h2

/-- **C63**, for any words: without word breaking, a line that ends inside a word ends right after a punctuation mark, and
no hyphen is added. -/
theorem C63_any [MoreLaws F] (hu : AnyUsed env dict opts l seqs) (hf : List.Forall₂ (Found rt env) tokens tks)
    (hz : Arith.toInt ((defaultOptions opts).downScale (Arith.ofInt 0 : F)) ≤ 0)
    (hl : (splitterOf env dict (defaultOptions opts)).Lossless) (hne : ∀ xs ∈ tks, xs.flatMap Span.text ≠ [])
    (hp : Within (defaultOptions opts).hyphenPenalty 10000) (ho : OwnPlace (defaultOptions opts))
    (hn : Arith.eq (defaultOptions opts).hyphenPenalty (defaultOptions opts).hyphenPenalty = true)
    (hb : Arith.le (defaultOptions opts).tolerance (Arith.ofInt 50) = true) (hw : (defaultOptions opts).wordBreak = false)
    (h : leftAlignUniform rt env l tokens maxWidth = .ok (some lines, l')) :
    ∃ shown, List.Forall₂ (Sprinkled (seqs ++ seqsOf tks)) shown lines ∧
      Reflow (spacesBetween (defaultOptions opts)) (fun e => e = []) (fun r e => e = [] ∧ IsMark env r)
        (joined (tks.map (·.flatMap Span.text))) shown := by
  obtain ⟨shown, s1, s3⟩ := C50_any hu hf hz hl hne hp ho hn hb h
  refine ⟨shown, s1, s3.imp (fun _ h => h) ?_⟩
  rintro r e (⟨h1, h2 | ⟨h2, _⟩⟩ | ⟨h2, _⟩)
  · exact ⟨h1, h2⟩
  · rw [hw] at h2; cases h2
  · rw [hw] at h2; cases h2

end

/-- **C50**, in float64 with the default options: any words with some text each, any width, any calls before. -/
theorem C50_default_any {rt : Runtime} {env : Env} {dict : Dictionary} {l l' : LineBreaker F64} {seqs : List (List Rune)}
    {tokens : List (List Rune)} {tks : List (List Span)} {maxWidth : F64} {lines : List (List Rune)}
    (hu : AnyUsed env dict ([] : List (Opt F64)) l seqs) (hf : List.Forall₂ (Found rt env) tokens tks)
    (hne : ∀ xs ∈ tks, xs.flatMap Span.text ≠ [])
    (h : leftAlignUniform rt env l tokens maxWidth = .ok (some lines, l')) :
    ∃ shown, List.Forall₂ (Sprinkled (seqs ++ seqsOf tks)) shown lines ∧
      Reflow [0x20] (fun e => e = []) (CutAfter env (defaultOptions ([] : List (Opt F64))))
        (joined (tks.map (·.flatMap Span.text))) shown := by
  have e : (defaultOptions ([] : List (Opt F64))).hyphenPenalty = Arith.ofInt 300 := rfl
  have eg : spacesBetween (defaultOptions ([] : List (Opt F64))) = [0x20] := by
    unfold spacesBetween
    rw [spaces_default]
    rfl
  rw [← eg]
  refine C50_any hu hf (zero_scaled64 _) (lossless_builtin rfl rfl) hne ?_ ?_ ?_ ?_ h
  · rw [e]; exact within_int 300 10000 (by decide) (by decide) (by decide)
  · intro k hk
    rw [e, Laws.eq_int k 300 ?_ (small 300 (by decide))]
    · simp only [List.mem_cons, List.not_mem_nil, or_false] at hk
      rcases hk with rfl | rfl | rfl | rfl <;> decide
    · simp only [List.mem_cons, List.not_mem_nil, or_false] at hk
      rcases hk with rfl | rfl | rfl | rfl <;> exact small _ (by decide)
  · rw [e, Laws.eq_int 300 300 (small 300 (by decide)) (small 300 (by decide))]; rfl
  · show Arith.le (defaultOptions ([] : List (Opt F64))).tolerance _ = true
    rw [← Laws.tenths_int 50]
    exact Laws.tenths_le _ _ (by decide)

/-- **C62**, in float64 with the default options: any words, the first and the last one with some text, any width, any calls
before. -/
theorem C62_default_any {rt : Runtime} {env : Env} {dict : Dictionary} {l l' : LineBreaker F64} {seqs : List (List Rune)}
    {tokens : List (List Rune)} {tks : List (List Span)} {maxWidth : F64} {lines : List (List Rune)}
    (hu : AnyUsed env dict ([] : List (Opt F64)) l seqs) (hf : List.Forall₂ (Found rt env) tokens tks)
    (h1 : ∀ xs ∈ tks.head?, xs.flatMap Span.text ≠ []) (h2 : ∀ xs ∈ tks.getLast?, xs.flatMap Span.text ≠ [])
    (h : leftAlignUniform rt env l tokens maxWidth = .ok (some lines, l')) :
    lines ≠ [] ∧ ∃ shown, List.Forall₂ (Sprinkled (seqs ++ seqsOf tks)) shown lines ∧
      ∀ line ∈ shown, ∃ t, t ≠ [] ∧ t <:+: line ∧ ∃ xs ∈ tks, t <:+: xs.flatMap Span.text := by
  have e : (defaultOptions ([] : List (Opt F64))).hyphenPenalty = Arith.ofInt 300 := rfl
  refine C62_any hu hf (zero_scaled64 _) (lossless_builtin rfl rfl) h1 h2 ?_ ?_ ?_ h
  · rw [e]; exact within_int 300 10000 (by decide) (by decide) (by decide)
  · intro k hk
    rw [e, Laws.eq_int k 300 ?_ (small 300 (by decide))]
    · simp only [List.mem_cons, List.not_mem_nil, or_false] at hk
      rcases hk with rfl | rfl | rfl | rfl <;> decide
    · simp only [List.mem_cons, List.not_mem_nil, or_false] at hk
      rcases hk with rfl | rfl | rfl | rfl <;> exact small _ (by decide)
  · show Arith.le (defaultOptions ([] : List (Opt F64))).tolerance _ = true
    rw [← Laws.tenths_int 50]
    exact Laws.tenths_le _ _ (by decide)

/-! ## Cases -/

/-- The laws of the rationals. -/
local instance reflowLaws : Laws Rat := ratLaws (2 ^ 53) (le_refl _)

theorem lines_of {l : LineBreaker Rat} {rt : Runtime} {ts : List (List Rune)} {w : Rat} {ls : List (List Rune)}
    (h : (leftAlignUniform rt Env.ascii l ts w).map Prod.fst = .ok (some ls)) :
    ∃ l', leftAlignUniform rt Env.ascii l ts w = .ok (some ls, l') := by
  cases e : leftAlignUniform rt Env.ascii l ts w with
  | error p => rw [e] at h; cases h
  | ok p =>
    rw [e] at h
    obtain ⟨a, b⟩ := p
    cases h
    exact ⟨b, rfl⟩

/-- The spans of the words of the case below. -/
def styledSpans : List (List Span) :=
  [[⟨[], runesOf "aabb", []⟩], [⟨runesOf "\u001b[1m", runesOf "foobar", runesOf "\u001b[0m"⟩], [⟨[], runesOf "abc", []⟩],
    [⟨[], runesOf "dddd,", []⟩], [⟨[], runesOf "eeee", []⟩]]

/-- **C50, C57**, a case: negative widths and escape sequences. -/
theorem C50_any_case : ∃ l' shown,
    leftAlignUniform backward Env.ascii (new Env.ascii (dictOf sampleLines) [unit, belowQ]) styledWord (Arith.ofInt 4) =
      .ok (some styledLines, l') ∧
    List.Forall₂ (Sprinkled ([] ++ seqsOf styledSpans)) shown styledLines ∧
    Reflow [0x20] (fun e => e = []) (CutAfter Env.ascii (defaultOptions [unit, belowQ]))
      (joined ((["aabb", "foobar", "abc", "dddd,", "eeee"] : List String).map runesOf)) shown := by
  obtain ⟨l', h⟩ := lines_of (l := new Env.ascii (dictOf sampleLines) [unit, belowQ]) (rt := backward) (ts := styledWord)
    (w := Arith.ofInt 4) (ls := styledLines) (by decide +kernel)
  obtain ⟨shown, h1, h3⟩ := C50_any .new (styled_found backward (fun _ => rfl)) (by decide +kernel)
    (lossless_builtin rfl rfl) (by decide +kernel) (within_int 300 10000 (by decide) (by decide) (by decide))
    (by intro k hk; simp only [List.mem_cons, List.not_mem_nil, or_false] at hk; rcases hk with rfl | rfl | rfl | rfl <;> decide +kernel)
    (by decide +kernel) (by decide +kernel) h
  rw [show spacesBetween (defaultOptions [unit, belowQ]) = [0x20] by decide +kernel] at h3
  exact ⟨l', shown, h, h1, h3⟩

/-- **C62**, a case: negative widths, and an empty word. -/
theorem C62_any_case : ∃ l' shown,
    leftAlignUniform backward Env.ascii (new Env.ascii (dictOf sampleLines) [unit, belowQ]) ((["aabb", "", "foobar"] : List String).map runesOf)
      (Arith.ofInt 4) = .ok (some ((["aabb", "fo-", "obar"] : List String).map runesOf), l') ∧
    List.Forall₂ (Sprinkled ([] ++ seqsOf ((["aabb", "", "foobar"] : List String).map fun w => [⟨[], runesOf w, []⟩]))) shown
      ((["aabb", "fo-", "obar"] : List String).map runesOf) ∧
    ∀ line ∈ shown, ∃ t, t ≠ [] ∧ t <:+: line ∧
      ∃ xs ∈ (["aabb", "", "foobar"] : List String).map fun w => [(⟨[], runesOf w, []⟩ : Span)], t <:+: xs.flatMap Span.text := by
  obtain ⟨l', h⟩ := lines_of (l := new Env.ascii (dictOf sampleLines) [unit, belowQ]) (rt := backward)
    (ts := (["aabb", "", "foobar"] : List String).map runesOf) (w := Arith.ofInt 4)
    (ls := (["aabb", "fo-", "obar"] : List String).map runesOf) (by decide +kernel)
  obtain ⟨_, shown, h1, h3⟩ := C62_any .new (tks := (["aabb", "", "foobar"] : List String).map fun w => [⟨[], runesOf w, []⟩])
    (.cons (found_run (by decide +kernel)) (.cons (found_run (by decide +kernel)) (.cons (found_run (by decide +kernel)) .nil)))
    (by decide +kernel)
    (lossless_builtin rfl rfl) (by decide +kernel) (by decide +kernel) (within_int 300 10000 (by decide) (by decide) (by decide))
    (by intro k hk; simp only [List.mem_cons, List.not_mem_nil, or_false] at hk; rcases hk with rfl | rfl | rfl | rfl <;> decide +kernel)
    (by decide +kernel) h
  exact ⟨l', shown, h, h1, h3⟩

/-- The words of the case below. -/
def wholeWords : List String := ["foobar", "abc,dddd", "eeee"]

/-- **C63**, a case: the same words are not cut, but after the mark. -/
theorem C63_any_case : ∃ l' shown,
    leftAlignUniform backward Env.ascii (new Env.ascii (dictOf sampleLines) [unit, belowQ, .wordBreak false])
      (wholeWords.map runesOf) (Arith.ofInt 4) =
      .ok (some ((["foobar abc,", "dddd", "eeee"] : List String).map runesOf), l') ∧
    List.Forall₂ (Sprinkled ([] ++ seqsOf (wholeWords.map fun w => [⟨[], runesOf w, []⟩]))) shown ((["foobar abc,", "dddd", "eeee"] : List String).map runesOf) ∧
    Reflow [0x20] (fun e => e = []) (fun r e => e = [] ∧ IsMark Env.ascii r)
      (joined (wholeWords.map runesOf)) shown := by
  obtain ⟨l', h⟩ := lines_of (l := new Env.ascii (dictOf sampleLines) [unit, belowQ, .wordBreak false]) (rt := backward)
    (ts := wholeWords.map runesOf) (w := Arith.ofInt 4)
    (ls := (["foobar abc,", "dddd", "eeee"] : List String).map runesOf) (by decide +kernel)
  obtain ⟨shown, h1, h3⟩ := C63_any .new (tks := wholeWords.map fun w => [⟨[], runesOf w, []⟩])
    (.cons (found_run (by decide +kernel)) (.cons (found_run (by decide +kernel)) (.cons (found_run (by decide +kernel)) .nil)))
    (by decide +kernel)
    (lossless_builtin rfl rfl) (by decide +kernel) (within_int 300 10000 (by decide) (by decide) (by decide))
    (by intro k hk; simp only [List.mem_cons, List.not_mem_nil, or_false] at hk; rcases hk with rfl | rfl | rfl | rfl <;> decide +kernel)
    (by decide +kernel) (by decide +kernel) rfl h
  rw [show spacesBetween (defaultOptions [unit, belowQ, .wordBreak false]) = [0x20] by decide +kernel] at h3
  exact ⟨l', shown, h, h1, h3⟩

end Verif.Props
