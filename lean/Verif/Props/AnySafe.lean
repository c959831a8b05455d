import Verif.Proofs.LBSafe
import Verif.Props.AnyReach

/-! # C54 and C70, for any words, widths and histories of calls

No panic, whatever the words (escape sequences included, as long as `StripToken` returns), the numbers given by the measurer
(of any sign, NaN), the parts given by the split functions, the width of the lines and the earlier calls. -/

set_option linter.unusedSectionVars false

namespace Verif.Props
open Verif.Go Verif.Model Verif.Model.LB Verif.Spec Verif.Spec.Ansi Verif.Spec.LB Verif.Proofs Verif.Proofs.LB

section
variable {F : Type} [Arith F]

/-- Custom split functions return, the one that cuts words with at least one part. -/
structure Returning (o : Options F) : Prop where
  punctuator : ∀ f, o.punctuator = some f → ∀ t, ∃ parts, f t = .ok parts
  hyphenator : ∀ f, o.hyphenator = some f → ∀ t, ∃ parts, f t = .ok parts ∧ parts ≠ []

/-- The number of spaces between words is not negative, nor is the one for no width, and slices of so many runes can be made. -/
structure Spaced (o : Options F) : Prop where
  none : 0 ≤ Arith.toInt (o.downScale (Arith.ofInt 0 : F)) ∧ Arith.toInt (o.downScale (Arith.ofInt 0 : F)) ≤ 2 ^ 46
  some : 0 ≤ spacesShown o ∧ spacesShown o ≤ 2 ^ 46

variable {rt rt' : Runtime} {env : Env} {dict : Dictionary} {opts : List (Opt F)} {l l₂ : LineBreaker F}
  {seqs seqs₂ : List (List Rune)} {tokens : List (List Rune)} {tks tks₂ : List (List Span)}

theorem tokens_return (hp : ∀ t, ∃ parts, callSplit l.punctuator t = .ok parts)
    (hh : l.wordBreak = true → ∀ t, ∃ parts, callSplit l.hyphenator t = .ok parts ∧ parts ≠ [])
    (hf : List.Forall₂ (Found rt env) tokens tks) (a : AState) : ∃ p, tokensLoop rt env l tokens a = .ok p := by
  have hword : l.wordBreak = true → ∀ w s, ∃ p, wordNodes l w s = .ok p := by
    intro hb w s
    unfold wordNodes
    by_cases h : isHyphen w = true
    · rw [if_pos h]; exact ⟨_, rfl⟩
    · rw [if_neg h]
      obtain ⟨ps, h1, h2⟩ := hh hb w
      rw [h1, ok_bind]
      have hlen : 0 < ps.length := List.length_pos_of_ne_nil h2
      obtain ⟨qs, e1⟩ : ∃ qs, slice ps 0 ((ps.length : Int) - 1) = .ok qs := by
        unfold slice
        rw [if_pos (by omega)]
        exact ⟨_, rfl⟩
      have e2 : index ps ((ps.length : Int) - 1) = .ok (ps[ps.length - 1]'(by omega)) := by
        unfold index
        rw [show ((ps.length : Int) - 1) = ((ps.length - 1 : Nat) : Int) by omega, if_neg (by omega)]
        simp only [Int.toNat_natCast]
        rw [List.getElem?_eq_getElem (by omega)]
      rw [e1, ok_bind]
      simp only [e2, ok_bind, pure_eq_ok]
      exact ⟨_, rfl⟩
  have hwords : l.wordBreak = true → ∀ ws s, ∃ p, wordsLoop l ws s = .ok p := by
    intro hb ws
    induction ws with
    | nil => intro s; exact ⟨_, rfl⟩
    | cons w ws ih =>
      intro s
      obtain ⟨p, h1⟩ := hword hb w s
      obtain ⟨q, h2⟩ := ih p.2
      simp only [wordsLoop, h1, ok_bind, h2, pure_eq_ok]
      exact ⟨_, rfl⟩
  have hpart : ∀ t s, ∃ p, partNodes env l t s = .ok p := by
    intro t s
    unfold partNodes
    by_cases h1 : isPunctuation env t = true
    · rw [if_pos h1]; exact ⟨_, rfl⟩
    rw [if_neg h1]
    by_cases h2 : (!l.wordBreak || decide ((t.length : Int) ≤ l.minHyphenate)) = true
    · rw [if_pos h2]; exact ⟨_, rfl⟩
    rw [if_neg h2]
    obtain ⟨ws, h3, _⟩ := C07_splitWord t
    rw [h3, ok_bind]
    refine hwords ?_ ws s
    cases hb : l.wordBreak with
    | true => rfl
    | false => rw [hb] at h2; simp at h2
  have hparts : ∀ ts s, ∃ p, partsLoop env l ts s = .ok p := by
    intro ts
    induction ts with
    | nil => intro s; exact ⟨_, rfl⟩
    | cons w ws ih =>
      intro s
      obtain ⟨p, h1⟩ := hpart w s
      obtain ⟨q, h2⟩ := ih p.2
      simp only [partsLoop, h1, ok_bind, h2, pure_eq_ok]
      exact ⟨_, rfl⟩
  have hstripped : ∀ mem toks a, ∃ p, strippedLoop env l mem toks a = .ok p := by
    intro mem toks
    induction toks with
    | nil => intro a; exact ⟨_, rfl⟩
    | cons w ws ih =>
      intro a
      obtain ⟨ps, h1⟩ := hp (textRunes mem w.text)
      obtain ⟨p, h2⟩ := hparts ps ⟨false, none, fieldRunes mem w.start, fieldRunes mem w.stop, a⟩
      obtain ⟨q, h3⟩ := ih p.2.close
      simp only [strippedLoop, h1, ok_bind, h2, h3, pure_eq_ok]
      exact ⟨_, rfl⟩
  have hbox : ∀ t xs a, Found rt env t xs → ∃ p, boxNodes rt env l t a = .ok p := by
    rintro t xs a ⟨toks, mem, h1, _⟩
    unfold boxNodes
    rw [h1, ok_bind]
    exact hstripped _ _ _
  induction hf generalizing a with
  | nil => exact ⟨_, rfl⟩
  | @cons t xs ts xss h1 hs ih =>
    obtain ⟨p, h2⟩ := hbox t xs a h1
    cases ts with
    | nil =>
      simp only [tokensLoop, h2, ok_bind, pure_eq_ok]
      exact ⟨_, rfl⟩
    | cons u us =>
      obtain ⟨q, h3⟩ := ih p.2
      simp only [tokensLoop, h2, ok_bind, h3, pure_eq_ok]
      exact ⟨_, rfl⟩

theorem used_returns (hu : AnyUsed env dict opts l seqs) (hr : Returning (defaultOptions opts)) :
    (∀ t, ∃ parts, callSplit l.punctuator t = .ok parts) ∧
    (l.wordBreak = true → ∀ t, ∃ parts, callSplit l.hyphenator t = .ok parts ∧ parts ≠ []) := by
  constructor
  · intro t
    rw [used_punctuator hu]
    dsimp only [callSplit]
    cases hp : (defaultOptions opts).punctuator with
    | some f => exact hr.punctuator f hp t
    | none =>
      obtain ⟨p, h, _⟩ := C04_punctuator_partition env t
      exact ⟨p, h⟩
  · intro hw t
    rw [used_hyphenator hu hw]
    dsimp only [callSplit]
    cases hp : (defaultOptions opts).hyphenator with
    | some f => exact hr.hyphenator f hp t
    | none =>
      obtain ⟨p, h, h', _⟩ := C09_hyphenator_partition env dict HOptions.default (show (0 : Int) ≤ 2 by decide) t
      exact ⟨p, h, h'⟩

variable [Laws F]

/-- There is text before the first place where a line may end. -/
theorem text_first {ss : List Sym} {ns : List (Node F)} (h : MadeOf l ss ns) {t : List Rune} {r : List Sym} (hs : ss = .part t :: r)
    {u v w : List (Node F)} {x : Node F} (he : ns ++ w = u ++ x :: v) (hl : LegalAt u.getLast? x) : ∃ y ∈ u, y.kind = .box := by
  obtain ⟨T, m1, m2, m3, m4, m5, m6, m7, m8⟩ := h
  have hnotpart : ∀ y ∈ T, ∀ s, y.2 = some (.part s) → y.1.kind = .box := by
    intro y hy s e
    have := m3 y hy
    unfold NodeOf at this
    cases hk : y.1.kind with
    | box => rfl
    | glue =>
      simp only [hk] at this
      rcases this with ⟨h, _⟩ | ⟨h, _⟩ <;> rw [e] at h <;> cases h
    | penalty =>
      simp only [hk] at this
      exact absurd e (this.1 s)
  by_contra hno
  have hno : ∀ y ∈ u, y.kind ≠ .box := fun y hy hk => hno ⟨y, hy, hk⟩
  have hU : ∀ (U V : List (Node F × Option Sym)), T = U ++ V → (∀ y ∈ U, y.1.kind ≠ .box) → symsOf U = [] := by
    intro U V e hk
    cases hsy : symsOf U with
    | nil => rfl
    | cons s ss' =>
      exfalso
      have h1 : symsOf T = symsOf U ++ symsOf V := by rw [e, symsOf_append]
      rw [m2, hs, hsy] at h1
      cases h1
      have : .part t ∈ symsOf U := by rw [hsy]; simp
      obtain ⟨y, hy, he⟩ := List.mem_filterMap.mp this
      exact hk y hy (hnotpart y (by rw [e]; simp [hy]) t he)
  rw [← m1] at he
  rcases List.append_eq_append_iff.mp he with ⟨R, h1, h2⟩ | ⟨R, h1, h2⟩
  · have := hU T [] (by simp) (fun y hy => hno _ (by rw [h1]; exact List.mem_append_left _ (List.mem_map_of_mem hy)))
    rw [m2, hs] at this
    cases this
  · cases R with
    | nil =>
      rw [List.append_nil] at h1
      have := hU T [] (by simp) (fun y hy => hno _ (by rw [← h1]; exact List.mem_map_of_mem hy))
      rw [m2, hs] at this
      cases this
    | cons z R =>
      simp only [List.cons_append, List.cons.injEq] at h2
      obtain ⟨U, S, e, hu, hr⟩ := List.map_eq_append_iff.mp h1
      obtain ⟨⟨x', tag⟩, V, rfl, hx, hv⟩ := List.map_eq_cons_iff.mp hr
      dsimp only at hx
      rw [← h2.1] at hx
      subst hx
      have k1 := hU U _ e (fun y hy => hno _ (by rw [← hu]; exact List.mem_map_of_mem hy))
      have k2 : symsOf T = symsOf ((x', tag) :: V) := by rw [e, symsOf_append, k1, List.nil_append]
      rw [m2, hs, symsOf_cons] at k2
      have hkb : x'.kind ≠ .box := by
        intro hk
        rcases hl with ⟨h, _⟩ | ⟨h, _⟩ <;> rw [hk] at h <;> cases h
      cases tag with
      | some s =>
        cases k2
        exact hkb (hnotpart (x', some (.part t)) (by rw [e]; simp) t rfl)
      | none =>
        obtain ⟨V', e'⟩ := m7.at e (by rw [hu]; exact hl)
        rw [e'] at k2
        cases k2

theorem legal_strip {u : List (Node F)} {x : Node F} (h : LegalAt u.getLast? x) : LegalAt (u.map strip).getLast? (strip x) := by
  rw [List.getLast?_map]
  rcases h with ⟨h1, h2⟩ | h
  · refine Or.inl ⟨h1, ?_⟩
    rw [Option.map_map]
    exact h2
  · exact Or.inr h

/-- The nodes of a paragraph: penalties are not extreme, and there is text before the first place where a line may end. -/
theorem safe_nodes (hu : AnyUsed env dict opts l seqs) (hf : List.Forall₂ (Found rt env) tokens tks) (hne : tokens ≠ [])
    (h1 : ∀ xs ∈ tks.head?, spansSyms (splitterOf env dict (defaultOptions opts)) xs ≠ [])
    (hp : Within (defaultOptions opts).hyphenPenalty 10000)
    (hb : Arith.le (defaultOptions opts).tolerance (Arith.ofInt 50) = true)
    {p : List (Node F) × AState} (hp1 : tokensLoop rt env l tokens l.attrList = .ok p) :
    Costs l.toOptions ∧ (∀ n ∈ p.1, Mild n) ∧
      ∀ u x v, p.1 = u ++ x :: v → LegalAt u.getLast? x → Gd p.1 0 u.length := by
  obtain ⟨k1, k2, k3, k4, k5, k6, k7, k8⟩ := fixed_options opts
  have hd := used_describes hu
  have t1 := (anyUsed_twin hu).1
  have ho : l.toOptions = (new env dict opts).toOptions := t1.options
  have hcost : Costs l.toOptions := by
    rw [ho]
    refine ⟨k2, k1, k3, ?_, hb⟩
    show Within (defaultOptions opts).demeritsFlagged 10000
    rcases k8 with h8 | h8
    · rw [h8]; exact within_int 100 10000 (by decide) (by decide) (by decide)
    · rw [h8]; exact hp
  have hpen : l.hyphenPenalty = (defaultOptions opts).hyphenPenalty := by rw [ho]; rfl
  obtain ⟨⟨ns, en, hm⟩, _⟩ := made_tokens hd hf hne hp1
  obtain ⟨t, r, hsy⟩ : ∃ t r, styledSyms (splitterOf env dict (defaultOptions opts)) tks = .part t :: r := by
    cases tks with
    | nil => cases hf; exact absurd rfl hne
    | cons xs xss =>
      obtain ⟨t, r, e⟩ := (spans_start (splitterOf env dict (defaultOptions opts)) xs).resolve_right (h1 xs (by simp))
      cases xss with
      | nil => exact ⟨t, r, e⟩
      | cons ys yss => exact ⟨t, _, by rw [styledSyms, e]; rfl; simp⟩
  have hall : ∀ n ∈ p.1, Mild n := by
    refine all_tokens (l := l) (P := Mild) ?_ ?_ ?_ rt env tokens l.attrList p hp1
    · intro a b c e; simp [newGlue] at e
    · intro w t a e; simp [newBox] at e
    · intro w b q hq _
      simp only [List.mem_cons, List.not_mem_nil, or_false] at hq
      rcases hq with rfl | rfl | rfl | rfl | rfl | rfl
      · exact Or.inr (within_int _ _ (by decide) (by decide) (by decide))
      · exact Or.inr (within_int _ _ (by decide) (by decide) (by decide))
      · exact Or.inr (by rw [hpen]; exact hp)
      · exact Or.inr (by rw [hd.mark]; exact within_int _ _ (by decide) (by decide) (by decide))
      · exact Or.inr (by rw [hd.hard]; exact within_int _ _ (by decide) (by decide) (by decide))
      · exact Or.inl rfl
  have hearly : ∀ u x v, p.1 = u ++ x :: v → LegalAt u.getLast? x → Gd p.1 0 u.length := by
    intro u x v e hl
    have e' : ns.map strip ++ endNodes.map strip = u.map strip ++ strip x :: v.map strip := by
      rw [← List.map_append, ← en, e]; simp
    obtain ⟨y, hy, hk⟩ := text_first hm hsy e' (legal_strip hl)
    obtain ⟨z, hz, rfl⟩ := List.mem_map.mp hy
    obtain ⟨i, hi, rfl⟩ := List.getElem_of_mem hz
    refine ⟨by rw [e]; simp, i, u[i], Nat.zero_le _, le_of_lt hi, ?_, Or.inl hk⟩
    rw [e, List.getElem?_append_left hi, List.getElem?_eq_getElem hi]
  exact ⟨hcost, hall, hearly⟩

/-- **C54**, on any words that start with some text (see `C54_leading_empty_fails`): no panic, whatever the measurer, the
parts given by the split functions, the width of the lines and the earlier calls. -/
theorem C54_any_partial (rt : Runtime) (hu : AnyUsed env dict opts l seqs) (hf : List.Forall₂ (Found rt env) tokens tks)
    (h1 : ∀ xs ∈ tks.head?, spansSyms (splitterOf env dict (defaultOptions opts)) xs ≠ [])
    (hr : Returning (defaultOptions opts)) (hg : Spaced (defaultOptions opts))
    (hp : Within (defaultOptions opts).hyphenPenalty 10000)
    (hb : Arith.le (defaultOptions opts).tolerance (Arith.ofInt 50) = true) (maxWidth : F) :
    ∃ r, leftAlignUniform rt env l tokens maxWidth = .ok r := by
  by_cases hne : tokens = []
  · subst hne
    exact ⟨_, align_nil rt env l maxWidth⟩
  have hd := used_describes hu
  have t1 := (anyUsed_twin hu).1
  have ho : l.toOptions = (new env dict opts).toOptions := t1.options
  obtain ⟨q1, q2⟩ := used_returns hu hr
  obtain ⟨p, hp1⟩ := tokens_return (rt := rt) q1 q2 hf l.attrList
  obtain ⟨hcost, hall, hearly⟩ := safe_nodes hu hf hne h1 hp hb hp1
  obtain ⟨⟨ns, en, hm⟩, _⟩ := made_tokens hd hf hne hp1
  have hrep : ∀ k : Int, 0 ≤ k ∧ k ≤ 2 ^ 46 → ∃ t, repeatRunes space k = .ok t := by
    intro k hk
    unfold repeatRunes
    split
    · exact ⟨_, rfl⟩
    · rw [if_neg (by simp only [space, maxRunes, List.length_cons, List.length_nil]; omega)]; exact ⟨_, rfl⟩
  have hscale : ∀ y, l.downScale y = (defaultOptions opts).downScale y := by intro y; rw [ho]; rfl
  have hspace : l.spaceWidth = (defaultOptions opts).scale ((defaultOptions opts).measurer [0x20]) := by rw [t1.space]; rfl
  have hzero : Arith.lt (zero : F) zero = false := zero_lt_zero
  have hnone : ∀ {n : Node F} {st : F}, (st = l.glueStretch ∨ st = Arith.neg l.glueStretch ∨ st = infinity) →
      n.sums = ⟨zero, st, zero⟩ → ∃ t, glueText l.toOptions zero n = .ok t := by
    intro n st hst hn
    have hst : ∃ k : Int, |k| ≤ 1000000 ∧ st = Arith.ofInt k := by
      rcases hst with h | h | h
      · exact ⟨6, by decide, by rw [h, hd.stretch]⟩
      · exact ⟨-6, by decide, by rw [h, hd.stretch, Laws.neg_int 6 (small 6 (by decide)) (by decide)]⟩
      · exact ⟨10000, by decide, h⟩
    obtain ⟨k, hk, rfl⟩ := hst
    unfold glueText
    rw [hn]
    simp only [hzero, Bool.false_eq_true, if_false]
    have e2 : Arith.add (zero : F) (Arith.mul zero (Arith.ofInt k)) = Arith.ofInt 0 :=
      Laws.add_zero_mul 0 k (small 0 (by decide)) (small k hk)
    rw [e2]
    exact hrep _ (by rw [hscale]; exact hg.none)
  have hglue : ∀ n ∈ p.1, n.kind = .glue → ∃ t, glueText l.toOptions zero n = .ok t := by
    intro n hn hk
    rw [en] at hn
    rcases List.mem_append.mp hn with hn | hn
    · obtain ⟨T, m1, _, m3, _⟩ := hm
      have : strip n ∈ T.map Prod.fst := by rw [m1]; exact List.mem_map_of_mem hn
      obtain ⟨y, hy, ey⟩ := List.mem_map.mp this
      have hy' := m3 y hy
      unfold NodeOf at hy'
      have hk' : y.1.kind = .glue := by rw [ey]; exact hk
      have hs' : y.1.sums = n.sums := by rw [ey]; rfl
      simp only [hk'] at hy'
      rcases hy' with ⟨_, hy'⟩ | ⟨_, st, hst, hy'⟩
      · unfold glueText
        rw [← hs', hy']
        simp only [hzero, Bool.false_eq_true, if_false]
        refine hrep _ ?_
        rw [hscale, hspace, hd.stretch]
        exact hg.some
      · exact hnone hst (hs' ▸ hy')
    · simp only [endNodes, List.mem_cons, List.not_mem_nil, or_false] at hn
      rcases hn with rfl | rfl
      · exact hnone (Or.inr (Or.inr rfl)) rfl
      · cases hk
  obtain ⟨r, r1, r2⟩ := break_ok rt hcost (ideal := l.scale maxWidth) (u := ns ++ [newGlue zero infinity zero]) hall
    (by rw [en]; simp [endNodes]) hearly
  unfold leftAlignUniform leftAlignedNodes
  rw [hp1, ok_bind]
  simp only [r1, ok_bind]
  cases r with
  | none => exact ⟨_, rfl⟩
  | some chain =>
    obtain ⟨lines, hl⟩ := (r2 chain rfl).2 hglue p.2
    simp only [hl, ok_bind]
    exact ⟨_, rfl⟩

/-- **C70.** A paragraph that is set is set with a higher tolerance too, whatever the measurer, the parts given by the split
functions, the width of the lines and the earlier calls. -/
theorem C70_set_any (x : F) (hu : AnyUsed env dict opts l seqs) (hu₂ : AnyUsed env dict (opts ++ [.tolerance x]) l₂ seqs₂)
    (hw : Walks rt') (hf : List.Forall₂ (Found rt env) tokens tks) (hf₂ : List.Forall₂ (Found rt' env) tokens tks₂)
    (ht : tks.map (List.map Span.text) = tks₂.map (List.map Span.text))
    (h1 : ∀ xs ∈ tks₂.head?, spansSyms (splitterOf env dict (defaultOptions opts)) xs ≠ [])
    (hr : Returning (defaultOptions opts)) (hg : Spaced (defaultOptions opts)) (hp : Within (defaultOptions opts).hyphenPenalty 10000)
    (hx : Arith.le (defaultOptions opts).tolerance x = true) (hb : Arith.le x (Arith.ofInt 50) = true) (maxWidth : F)
    (h : ∃ lines l', leftAlignUniform rt env l tokens maxWidth = .ok (some lines, l')) :
    ∃ lines l', leftAlignUniform rt' env l₂ tokens maxWidth = .ok (some lines, l') := by
  have hd : defaultOptions (opts ++ [.tolerance x]) = { defaultOptions opts with tolerance := x } := by
    unfold defaultOptions
    rw [List.foldl_append]
    rfl
  have hn := C70_any x hu hu₂ hw hf hf₂ ht hp hx hb maxWidth (by
    rintro ⟨m, hm⟩
    obtain ⟨lines, l', h⟩ := h
    rw [h] at hm
    cases hm)
  obtain ⟨⟨o, l'⟩, hr'⟩ := C54_any_partial rt' hu₂ hf₂ (by rw [hd]; exact h1) (by rw [hd]; exact ⟨hr.1, hr.2⟩)
    (by rw [hd]; exact ⟨hg.1, hg.2⟩) (by rw [hd]; exact hp) (by rw [hd]; exact hb) maxWidth
  cases o with
  | none => exact absurd ⟨l', hr'⟩ hn
  | some lines => exact ⟨lines, l', hr'⟩

theorem text_parts {sp : Splitter} (hl : sp.Lossless) {xs : List Span} (hx : xs.flatMap Span.text ≠ []) : spansSyms sp xs ≠ [] := by
  intro he
  apply hx
  rw [List.flatMap_eq_nil_iff]
  intro x hm
  have h1 : tokenSyms sp x.text = [] := List.flatMap_eq_nil_iff.mp he x hm
  by_contra h
  have h2 := (token_token hl x.text h).2
  rw [h1] at h2
  exact h (List.map_eq_nil_iff.mp h2.symm)

theorem spaces_default : spacesShown (defaultOptions ([] : List (Opt F))) = 1 := by
  have e1 : (defaultOptions ([] : List (Opt F))).scaleFactor = Arith.ofInt 1 := rfl
  have e2 : (defaultOptions ([] : List (Opt F))).measurer [0x20] = Arith.ofInt 1 := by
    rw [default_measurer, defaultMeasurer_eq, defaultText_space]
  unfold spacesShown
  rw [Options.scale, e2, e1, Laws.mul_one, Laws.round_int, Laws.neg_int 6 (small 6 (by decide)) (by decide),
    Laws.add_zero_mul 1 (-6) (small 1 (by decide)) (small (-6) (by decide)), Options.downScale, e1, Laws.div_one, Laws.round_int,
    Laws.toInt_int _ (small 1 (by decide))]

theorem spaced_default : Spaced (defaultOptions ([] : List (Opt F))) := by
  have e1 : (defaultOptions ([] : List (Opt F))).scaleFactor = Arith.ofInt 1 := rfl
  constructor
  · rw [Options.downScale, e1, Laws.div_one, Laws.round_int, Laws.toInt_int _ (small 0 (by decide))]; decide
  · rw [spaces_default]; decide

/-- **C54**, with the default options: no panic on words of which the first has some text, in any width and after any calls. -/
theorem C54_default_any_partial (rt : Runtime) (hu : AnyUsed env dict ([] : List (Opt F)) l seqs)
    (hf : List.Forall₂ (Found rt env) tokens tks) (h1 : ∀ xs ∈ tks.head?, xs.flatMap Span.text ≠ []) (maxWidth : F) :
    ∃ r, leftAlignUniform rt env l tokens maxWidth = .ok r := by
  refine C54_any_partial rt hu hf (fun xs hx => text_parts (lossless_builtin rfl rfl) (h1 xs hx)) ⟨?_, ?_⟩ spaced_default ?_ ?_ maxWidth
  · intro f h; cases h
  · intro f h; cases h
  · exact within_int 300 10000 (by decide) (by decide) (by decide)
  · show Arith.le (defaultOptions ([] : List (Opt F))).tolerance _ = true
    rw [← Laws.tenths_int 50]
    exact Laws.tenths_le _ _ (by decide)

end

/-! ## Cases -/

/-- The laws of the rationals. -/
local instance anySafeLaws : Laws Rat := ratLaws (2 ^ 53) (le_refl _)

/-- **C54**, a case: negative widths, escape sequences, any calls before, and a width of -3. -/
theorem C54_any_case_partial {l : LineBreaker Rat} {seqs : List (List Rune)}
    (hu : AnyUsed Env.ascii (dictOf sampleLines) [unit, belowQ] l seqs) :
    ∃ r, leftAlignUniform backward Env.ascii l styledWord (Arith.ofInt (-3)) = .ok r := by
  refine C54_any_partial backward hu (styled_found backward (fun _ => rfl)) (by decide +kernel) ⟨?_, ?_⟩ ⟨by decide +kernel, by decide +kernel⟩
    (within_int 300 10000 (by decide) (by decide) (by decide)) (by decide +kernel) _
  · intro f h; cases h
  · intro f h; cases h

/-- **C70**, a case: the same words are set in 8 columns with a tolerance of 2, whatever was set before. -/
theorem C70_set_case {l : LineBreaker Rat} {seqs : List (List Rune)}
    (hu : AnyUsed Env.ascii (dictOf sampleLines) ([unit, belowQ, .tolerance (Arith.tenths 5)] ++ [.tolerance (Arith.ofInt 2)]) l seqs) :
    ∃ lines l', leftAlignUniform backward Env.ascii l styledWord (Arith.ofInt 8) = .ok (some lines, l') := by
  refine C70_set_any (rt := forward) (opts := [unit, belowQ, .tolerance (Arith.tenths 5)]) _ .new hu backward_walks
    (styled_found forward (fun _ => rfl)) (styled_found backward (fun _ => rfl)) rfl (by decide +kernel) ⟨?_, ?_⟩
    ⟨by decide +kernel, by decide +kernel⟩
    (within_int 300 10000 (by decide) (by decide) (by decide)) (by decide +kernel) (by decide +kernel) _ ?_
  · intro f h; cases h
  · intro f h; cases h
  · have h : (leftAlignUniform forward Env.ascii (new Env.ascii (dictOf sampleLines) [unit, belowQ, .tolerance (Arith.tenths 5)])
        styledWord (Arith.ofInt 8)).map (fun p => p.1.isSome) = .ok true := by decide +kernel
    cases e : leftAlignUniform forward Env.ascii (new Env.ascii (dictOf sampleLines) [unit, belowQ, .tolerance (Arith.tenths 5)])
        styledWord (Arith.ofInt 8) with
    | error p => rw [e] at h; cases h
    | ok p =>
      obtain ⟨_ | r, l'⟩ := p
      · rw [e] at h; cases h
      · exact ⟨r, l', rfl⟩

/-- A measurer by which a space is narrower than nothing. -/
def narrowSpace : Opt Rat := .measurer (fun rs => if rs = [0x20] then Arith.ofInt (-1) else Arith.ofInt rs.length)

/-- The condition on the space is needed: with a space of negative width, two words on one line panic. -/
theorem C54_narrow_space_fails :
    linesOf forward (demo [narrowSpace]) ["aaaa", "bbb"] 10 = .error .negRepeat ∧
      ¬ Spaced (defaultOptions [unit, narrowSpace]) := by
  refine ⟨by decide +kernel, fun h => ?_⟩
  have h := h.2
  revert h
  decide +kernel

/-- A measurer by which a space is wider than any slice. -/
def hugeSpace : Opt Rat := .measurer (fun rs => if rs = [0x20] then Arith.ofInt 70368744177665 else Arith.ofInt rs.length)

/-- So is the other one: with a space of more than 2^46 columns, two words on one line panic. -/
theorem C54_huge_space_fails :
    linesOf forward (demo [hugeSpace]) ["aaaa", "bbb"] 70368744177672 = .error .negRepeat ∧
      ¬ Spaced (defaultOptions [unit, hugeSpace]) := by
  refine ⟨by decide +kernel, fun h => ?_⟩
  have h := h.2
  revert h
  decide +kernel

end Verif.Props
