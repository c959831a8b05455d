import Verif.Proofs.LBTally
import Verif.Props.History
import Verif.Props.AlignSteps
import Verif.Props.Float64Cases

/-! # C112: no text is lost, whatever the widths and the options -/

namespace Verif.Props
open Verif.Go Verif.Model Verif.Model.LB Verif.Spec Verif.Spec.Ansi Verif.Spec.LB Verif.Proofs Verif.Proofs.LB

section
variable {F : Type} [Arith F] {rt : Runtime} {env : Env} {dict : Dictionary} {opts : List (Opt F)} {l l' : LineBreaker F}
  {seqs : List (List Rune)} {tokens : List (List Rune)} {tks : List (List Span)} {maxWidth : F} {lines : List (List Rune)}

theorem used_hyphenator (hu : AnyUsed env dict opts l seqs) (hw : l.wordBreak = true) :
    l.hyphenator = some (match (defaultOptions opts).hyphenator with
      | some f => f
      | none => hyphenatorBreakWord env dict HOptions.default) := by
  have e : l.hyphenator = (new env dict opts).hyphenator := congrArg Options.hyphenator (used_options hu)
  have e2 : (new env dict opts).wordBreak = true := (congrArg Options.wordBreak (used_options hu)).symm.trans hw
  have e3 : (defaultOptions opts).wordBreak = true := e2
  have e4 : (defaultOptions opts).minHyphenate = 4 := (fixed_options opts).2.2.2.2.2.1
  rw [e]
  unfold new
  cases h : (defaultOptions opts).hyphenator with
  | some f => simp only [h]
  | none => simp only [h, e3, e4, if_true]; rfl

theorem used_punctuator (hu : AnyUsed env dict opts l seqs) :
    l.punctuator = some (match (defaultOptions opts).punctuator with
      | some f => f
      | none => punctuatorBreakWord env) := by
  have e : l.punctuator = (new env dict opts).punctuator := congrArg Options.punctuator (used_options hu)
  rw [e]
  unfold new
  cases h : (defaultOptions opts).punctuator with
  | some f => simp only [h]
  | none => simp only [h]

theorem used_describes (hu : AnyUsed env dict opts l seqs) : Describes env l (splitterOf env dict (defaultOptions opts)) := by
  have ho := used_options hu
  obtain ⟨_, _, _, f1, f2, f3, f4, _⟩ := fixed_options opts
  refine ⟨?_, fun _ => rfl, ?_, fun _ => rfl, ?_, by rw [ho]; rfl, ?_, ?_, ?_, ?_⟩
  · intro t parts h
    rw [used_punctuator hu] at h
    unfold splitterOf
    dsimp only [callSplit] at h ⊢
    cases hp : (defaultOptions opts).punctuator with
    | some f => rw [hp] at h; dsimp only at h ⊢; rw [h]; rfl
    | none => rw [hp] at h; dsimp only at h ⊢; rw [h]; rfl
  · intro t parts h
    unfold splitterOf
    dsimp only
    rw [h]; rfl
  · intro hw t parts h
    rw [used_hyphenator hu hw] at h
    unfold splitterOf
    dsimp only [callSplit] at h ⊢
    cases hp : (defaultOptions opts).hyphenator with
    | some f => rw [hp] at h; dsimp only at h ⊢; rw [h]; rfl
    | none => rw [hp] at h; dsimp only at h ⊢; rw [h]; rfl
  · rw [ho]; exact f3
  · rw [ho]; exact f4
  · rw [ho]; exact f1
  · rw [ho]; exact f2

theorem used_lossless (hu : AnyUsed env dict opts l seqs) (hk : KeepsText (defaultOptions opts)) : Lossless l := by
  constructor
  · intro t parts h
    rw [used_punctuator hu] at h
    dsimp only [callSplit] at h
    cases hp : (defaultOptions opts).punctuator with
    | some f => rw [hp] at h; exact hk.punctuator f hp t parts h
    | none => rw [hp] at h; exact (punctuator_divides t parts h).1
  · intro hw t parts h
    rw [used_hyphenator hu hw] at h
    dsimp only [callSplit] at h
    cases hp : (defaultOptions opts).hyphenator with
    | some f => rw [hp] at h; exact hk.hyphenator f hp t parts h
    | none =>
      rw [hp] at h
      obtain ⟨p1, h1, _, h2⟩ := C09_hyphenator_partition env dict HOptions.default (show (0 : Int) ≤ 2 by decide) t
      dsimp only at h
      rw [h1] at h
      cases h
      exact h2

variable [Laws F]

theorem findStart_end (ns : List (Node F)) (k : Nat) :
    findStartNode (ns ++ endNodes) k ≤ k + ns.length + 1 := by
  induction ns generalizing k with
  | nil =>
    simp [endNodes, findStartNode, newGlue, newPenalty, minusInfinity,
      eq_small (F := F) (-10000) (-10000) (by decide) (by decide)]
  | cons x ns ih =>
    rw [List.cons_append, findStartNode]
    have h1 := ih k
    have h2 := ih (k + 1)
    simp only [List.length_cons]
    cases x.kind with
    | box => simp only; omega
    | penalty =>
      simp only
      split
      · omega
      · omega
    | glue => simp only; omega

theorem align_fills {full : Bool} (hu : AnyUsed env dict opts l seqs) (hf : List.Forall₂ (Found rt env) tokens tks)
    (hz : Arith.toInt ((defaultOptions opts).downScale (Arith.ofInt 0 : F)) ≤ 0)
    (h : leftAlignUniform rt env l tokens maxWidth = .ok (some lines, l'))
    (hfull : full = true → Arith.eq l.hyphenPenalty minusInfinity = false ∧ ∀ p, tokensLoop rt env l tokens l.attrList = .ok p →
      ∀ chain, breakPoints rt l.toOptions p.1 (l.scale maxWidth) = .ok (some chain) →
        chain.IsChain (fun a b => Gd p.1 a.position b.position)) :
    ∃ shown, List.Forall₂ (Sprinkled (seqs ++ seqsOf tks)) shown lines ∧
      Fills full (gapText l) (fun s h => mayEnd l.toOptions s h ∧ (full = true → mustEnd l.toOptions s h))
        (styledSyms (splitterOf env dict (defaultOptions opts)) tks) shown ∧
      (KeepsText (defaultOptions opts) →
        partsText (styledSyms (splitterOf env dict (defaultOptions opts)) tks) = (textsOf tks).flatten) ∧
      ((∀ p, tokensLoop rt env l tokens l.attrList = .ok p → ∀ r a b,
          breakPoints rt l.toOptions p.1 (l.scale maxWidth) = .ok (some (r ++ [a, b])) → BoxFrom p.1 a.position) →
        ∃ t line, .part t ∈ styledSyms (splitterOf env dict (defaultOptions opts)) tks ∧ shown.getLast? = some line ∧ t <:+: line) := by
  have hd := used_describes hu
  have hz' : Arith.toInt (l.downScale (Arith.ofInt 0 : F)) ≤ 0 := by rw [used_options hu]; exact hz
  obtain ⟨_, hs⟩ := anyUsed_twin hu
  by_cases hne : tokens = []
  · subst hne
    have e := align_nil rt env l maxWidth
    rw [e] at h
    cases h
  unfold leftAlignUniform leftAlignedNodes at h
  cases h1 : tokensLoop rt env l tokens l.attrList with
  | error e => rw [h1] at h; cases h
  | ok p =>
    simp only [h1, ok_bind] at h
    obtain ⟨⟨ns, en, T0, m1, m2, m3, m4, m5, m6, m7, m8⟩, htext⟩ := made_tokens hd hf hne h1
    obtain ⟨tks', hf', k⟩ := tokensLoop_kept rt env l tokens hs h1
    have := found_one hf hf'
    subst this
    let endT : List (Node F × Option Sym) := [(newGlue zero infinity zero, none), (newPenalty zero minusInfinity true, none)]
    let T := T0 ++ endT
    have eT : T.map Prod.fst = p.1.map strip := by
      rw [en]; simp [T, endT, m1, endNodes]; exact ⟨rfl, rfl⟩
    have eTe : T.map Prod.fst = ns.map strip ++ endNodes := by
      simp [T, endT, m1, endNodes]
    have hT : ∀ x ∈ T, NodeOf l x := by
      intro x hx
      rcases List.mem_append.mp hx with hx | hx
      · exact m3 x hx
      · simp only [endT, List.mem_cons, List.not_mem_nil, or_false] at hx
        rcases hx with rfl | rfl
        · exact Or.inr ⟨rfl, _, Or.inr (Or.inr rfl), rfl⟩
        · exact ⟨by simp, by simp, Or.inr (Or.inr rfl)⟩
    have hc : T.IsChain NotAfterBox := m4.append (by simp [endT, NotAfterBox]) (by
      intro x _ y hy hg
      simp only [endT, List.head?_cons, Option.mem_def, Option.some.injEq] at hy
      subst hy
      cases hg)
    have hsyms : symsOf T = styledSyms (splitterOf env dict (defaultOptions opts)) tks' := by
      simp only [T]
      rw [symsOf_append, m2]
      simp [endT, symsOf]
    have hwhole : Entire (symsOf T) := by rw [hsyms]; exact entire_styled _ _
    have hforced : ∃ x, T.getLast? = some x ∧ x.1.isForcedBreak = true :=
      ⟨(newPenalty zero minusInfinity true, none), by simp [T, endT], by
        simp [Node.isForcedBreak, newPenalty, minusInfinity, eq_small (F := F) (-10000) (-10000) (by decide) (by decide)]⟩
    have split : ∀ (U V : List (Node F × Option Sym)) (x : Node F × Option Sym), T = U ++ x :: V →
        (∃ V', T0 = U ++ x :: V' ∧ V = V' ++ endT) ∨ (x = (newGlue zero infinity zero, none) ∧ symsOf V = []) ∨ V = [] := by
      intro U V x e
      rcases List.append_eq_append_iff.mp e with ⟨R, h1, h2⟩ | ⟨R, h1, h2⟩
      · cases R with
        | nil =>
          simp only [List.nil_append, endT, List.cons.injEq] at h2
          exact Or.inr (Or.inl ⟨h2.1.symm, by rw [← h2.2]; rfl⟩)
        | cons r R =>
          simp only [endT, List.cons_append, List.cons.injEq] at h2
          cases R with
          | nil => simp at h2; exact Or.inr (Or.inr h2.2.2)
          | cons r' R => simp at h2
      · cases R with
        | nil =>
          simp only [List.nil_append, endT, List.cons.injEq] at h2
          exact Or.inr (Or.inl ⟨h2.1, by rw [h2.2]; rfl⟩)
        | cons r R =>
          simp only [List.cons_append, List.cons.injEq] at h2
          exact Or.inl ⟨R, by rw [h1, h2.1], h2.2⟩
    have hfree : ∀ U x V, T = U ++ x :: V → V ≠ [] → x.1.isForcedBreak = true → x.2 = some .soft := by
      intro U x V e hV hx
      rcases split U V x e with ⟨V', h1, _⟩ | ⟨h1, _⟩ | h1
      · exact (m6 x (by rw [h1]; simp) hx).1
      · rw [h1, glue_free] at hx; cases hx
      · exact absurd h1 hV
    have hun : full = true → ∀ U x V, T = U ++ x :: V → V ≠ [] → x.1.isForcedBreak = false := by
      intro hfl U x V e hV
      rcases split U V x e with ⟨V', h1, _⟩ | ⟨h1, _⟩ | h1
      · cases hx : x.1.isForcedBreak with
        | false => rfl
        | true =>
          have hx2 := (m6 x (by rw [h1]; simp) hx).2
          unfold Node.isForcedBreak at hx
          rw [hx2, (hfull hfl).1] at hx
          simp at hx
      · rw [h1, glue_free]
      · exact absurd h1 hV
    have hends : ∀ U x V, T = U ++ (x, none) :: V → LegalAt (U.map Prod.fst).getLast? x →
        symsOf V = [] ∨ ∃ r, symsOf V = .gap :: r := by
      intro U x V e hl
      rcases split U V (x, none) e with ⟨V', h1, h2⟩ | ⟨_, h1⟩ | h1
      · obtain ⟨r, hr⟩ := m7.at h1 hl
        exact Or.inr ⟨r ++ symsOf endT, by rw [h2, symsOf_append, hr]; rfl⟩
      · exact Or.inl h1
      · exact Or.inl (by rw [h1]; rfl)
    have hlen : T.length = ns.length + 2 := by
      have := congrArg List.length eTe
      simpa [endNodes] using this
    obtain ⟨act, _, c2, c3⟩ := breakPoints_chain rt l.toOptions (T.map Prod.fst) (l.scale maxWidth) (by
        intro x hx hl
        have hx : (T.map Prod.fst).head? = some x := by rw [← hx]; cases T <;> rfl
        rw [List.head?_map] at hx
        cases hh : T.head? with
        | none => rw [hh] at hx; cases hx
        | some y =>
          rw [hh] at hx
          cases hx
          rcases hl with ⟨_, hb⟩ | ⟨hk, hp⟩
          · cases hb
          · cases hT0 : T0 with
            | nil =>
              simp only [T, endT, hT0, List.nil_append, List.head?_cons, Option.some.injEq] at hh
              subst hh
              cases hk
            | cons z T1 =>
              simp only [T, hT0, List.cons_append, List.head?_cons, Option.some.injEq] at hh
              subst hh
              have := (m5 z (by rw [hT0]; simp)).2 hk
              rw [hp] at this
              cases this)
      ⟨newPenalty zero minusInfinity true, by rw [eTe]; simp [endNodes], by
        simp [Node.isForcedBreak, newPenalty, minusInfinity, eq_small (F := F) (-10000) (-10000) (by decide) (by decide)], by
        simp [newPenalty, minusInfinity, infinity, eq_small (F := F) (-10000) 10000 (by decide) (by decide)]⟩
      (by
        have := findStart_end (F := F) (ns.map strip) 0
        rw [← eTe] at this
        simp only [List.length_map] at this ⊢
        omega)
      (by simp; omega)
    have hb : breakPoints rt l.toOptions p.1 (l.scale maxWidth) = breakPoints rt l.toOptions (T.map Prod.fst) (l.scale maxWidth) := by
      rw [eT, breakPoints_strip]
    have hgood := fun hfl => (hfull hfl).2 p h1
    rw [hb, c3] at hgood
    have hb' := hb.trans c3
    rw [hb, c3] at h
    simp only [ok_bind] at h
    cases act with
    | nil => cases h
    | cons a act =>
      simp only [List.head?_cons, Option.map_some] at h
      obtain ⟨ch, hpos⟩ := c2 a (by simp)
      obtain ⟨pts, g1, g2⟩ := chain_path ch a.toPoint a.previous [] rfl (Path.nil _)
      rw [List.append_nil] at g1
      have hrat : ∀ q ∈ pts, q.ratio = zero := by
        intro q hq
        refine (chain_zero ch q ?_).2
        rw [← List.mem_reverse, g1]
        simp [hq]
      rw [g1] at h
      cases h2 : render l.toOptions p.2 p.1 (rootPoint.toPoint :: pts) with
      | error e => rw [h2] at h; cases h
      | ok ls =>
        simp only [h2, ok_bind, pure_eq_ok] at h
        cases h
        rcases render_sprinkled k.known l.toOptions p.1 k.shows (rootPoint.toPoint :: pts) with
          ⟨e, _, r2⟩ | ⟨q, q', r1, r2, r3⟩
        · rw [h2] at r2; cases r2
        · rw [h2] at r2
          cases r2
          rw [← eT] at r1
          unfold render at r1
          cases r4 : linesLoop (T.map Prod.fst) pts 0 with
          | error e => simp only [List.tail_cons, r4] at r1; cases r1
          | ok ls' =>
            simp only [List.tail_cons, r4, ok_bind] at r1
            have hpne : pts ≠ [] := by
              rintro rfl
              have := congrArg List.length g1
              simp only [List.length_reverse, List.length_cons, List.length_nil] at this
              have e0 : a.previous = [] := List.eq_nil_of_length_eq_zero (by omega)
              rw [e0] at g1
              simp only [List.reverse_cons, List.reverse_nil, List.nil_append, List.cons.injEq, and_true] at g1
              rw [g1] at hpos
              simp [rootPoint] at hpos
              omega
            have hlastp : ∀ q ∈ pts.getLast?, q.position + 1 = T.length := by
              intro y hy
              have e0 : (rootPoint.toPoint :: pts).getLast? = some y := by
                rw [List.getLast?_cons_of_ne_nil hpne]; exact hy
              rw [← g1] at e0
              simp only [List.reverse_cons, List.getLast?_append, List.getLast?_singleton, Option.some_or, Option.some.injEq] at e0
              rw [← e0]
              simpa using hpos
            refine ⟨q, r3, ?_, fun hk => htext (used_lossless hu hk), fun hlast => ?_⟩
            rotate_left
            · rw [← hsyms]
              refine last_line hd hz' hT hc hfree hforced hwhole g2 hpne hlastp hrat r4 r1 ?_
              intro r x y hxy
              obtain ⟨k, n, k1, k2, k3⟩ := hlast p rfl r x y (by rw [hb', ← hxy, ← g1]; rfl)
              rw [eT]
              exact ⟨k, strip n, k1, by rw [List.getElem?_map, k2]; rfl, k3⟩
            have := lines_fill hd hz' hT hc hfree hforced hwhole (by intro x hx; simp [T, endT] at hx; rw [← hx]) hends g2 hpne hlastp hrat r4 r1 hun
              (by
                intro hfl
                have := hgood hfl (rootPoint.toPoint :: pts) (by rw [← g1]; rfl)
                rw [eT]
                exact this.imp (fun _ _ hab => hab.strip))
            have es : symsOf (T.drop (rootPoint (F := F)).toPoint.position) =
                styledSyms (splitterOf env dict (defaultOptions opts)) tks' := by
              simp only [rootPoint, List.drop_zero]
              exact hsyms
            rwa [es] at this

theorem used_mayEnd (hu : AnyUsed env dict opts l seqs) (s : Option Sym) (h : List Rune) (hm : mayEnd l.toOptions s h) :
    mayEnd (defaultOptions opts) s h := by
  have ho := used_options hu
  have e1 : l.renderHyphens = (defaultOptions opts).renderHyphens := by rw [ho]; rfl
  have e2 : l.hyphenPenalty = (defaultOptions opts).hyphenPenalty := by rw [ho]; rfl
  rcases hm with h | ⟨h1, h2, x, h3, h4⟩
  · exact Or.inl h
  · refine Or.inr ⟨h1, e1 ▸ h2, x, ?_, e2 ▸ h4⟩
    cases s with
    | none => exact h3
    | some s =>
      cases s with
      | soft => exact h3.trans e2
      | part t => exact h3
      | gap => exact h3
      | hard => exact h3
      | mark => exact h3

theorem _root_.Verif.Spec.LB.Fills.imp {full : Bool} {g : List Rune} {hy hy' : Option Sym → List Rune → Prop} (hh : ∀ s h, hy s h → hy' s h) {ss : List Sym}
    {shown : List (List Rune)} (h : Fills full g hy ss shown) : Fills full g hy' ss shown := by
  induction h with
  | last d b t h1 h2 h3 => exact .last d b t h1 h2 (hh _ _ h3)
  | line d b s t h1 h2 h3 h4 h5 h6 h7 _ ih => exact .line d b s t h1 h2 h3 h4 h5 (hh _ _ h6) h7 ih

omit [Laws F] in
theorem between_spaces (o : Options F) : ∃ n, spacesBetween o = List.replicate n 0x20 := by
  unfold spacesBetween
  split
  · exact ⟨_, rfl⟩
  · exact ⟨0, rfl⟩

theorem used_gap (hu : AnyUsed env dict opts l seqs) : gapText l = spacesBetween (defaultOptions opts) := by
  have t1 := (anyUsed_twin hu).1
  have hscale : ∀ y, l.downScale y = (defaultOptions opts).downScale y := by intro y; rw [t1.options]; rfl
  have hspace : l.spaceWidth = (defaultOptions opts).scale ((defaultOptions opts).measurer [0x20]) := by rw [t1.space]; rfl
  have hzero : Arith.lt (zero : F) zero = false := zero_lt_zero
  have e : glueText l.toOptions zero (newGlue l.spaceWidth (Arith.neg l.glueStretch) zero) =
      repeatRunes space (spacesShown (defaultOptions opts)) := by
    unfold glueText newGlue spacesShown
    simp only [hzero, Bool.false_eq_true, if_false]
    rw [hscale, hspace, (used_describes hu).stretch]
    rfl
  unfold gapText spacesBetween
  rw [e]
  generalize spacesShown (defaultOptions opts) = k
  unfold repeatRunes space
  by_cases h0 : k = 0
  · subst h0; rfl
  by_cases h1 : k < 0 ∨ maxRunes < (([0x20] : List Rune).length : Int) * k
  · rw [if_neg (by simp [h0]), if_pos h1]
    rcases h1 with h1 | h1
    · rw [if_pos (by omega), Int.toNat_of_nonpos (by omega)]; rfl
    · rw [if_neg]
      simp only [maxRunes, List.length_cons, List.length_nil] at h1
      omega
  · rw [if_neg (by simp [h0]), if_neg h1, if_pos (by simp only [maxRunes, List.length_cons, List.length_nil] at h1; omega)]
    show (List.replicate k.toNat [0x20]).flatten = _
    generalize k.toNat = n
    induction n with
    | zero => rfl
    | succ n ih => simp [List.replicate_succ, ih]

/-- **C112.** Whatever the options, the measurer, the width, the calls before and the words: if LeftAlignUniform returns
lines, they show all parts of the words in order, each on one line. What else is shown are spaces, between two words as many
as the width of a space tells; the sequences found in the words and in the ones of earlier calls; and hyphens at the ends of lines.
(`hz` holds in float64 for all options: see `C112_float64`.) -/
theorem C112_nothing_lost (hu : AnyUsed env dict opts l seqs) (hf : List.Forall₂ (Found rt env) tokens tks)
    (hz : Arith.toInt ((defaultOptions opts).downScale (Arith.ofInt 0 : F)) ≤ 0)
    (h : leftAlignUniform rt env l tokens maxWidth = .ok (some lines, l')) :
    ∃ shown, List.Forall₂ (Sprinkled (seqs ++ seqsOf tks)) shown lines ∧
      Fills false (spacesBetween (defaultOptions opts)) (mayEnd (defaultOptions opts))
        (styledSyms (splitterOf env dict (defaultOptions opts)) tks) shown := by
  obtain ⟨shown, h1, h2, _⟩ := align_fills (full := false) hu hf hz h (by simp)
  have e := used_gap hu
  rw [e] at h2
  exact ⟨shown, h1, h2.imp (fun s h hm => used_mayEnd hu s h hm.1)⟩

/-- **C112.** A hyphen is only added where a word is cut, if the penalty of hyphenation points differs from the ones of the
other places and of the end of the paragraph. -/
theorem C112_hyphens (hu : AnyUsed env dict opts l seqs) (hf : List.Forall₂ (Found rt env) tokens tks)
    (hz : Arith.toInt ((defaultOptions opts).downScale (Arith.ofInt 0 : F)) ≤ 0)
    (hp : ∀ k ∈ [0, 200, 400, -10000], Arith.eq (Arith.ofInt k : F) (defaultOptions opts).hyphenPenalty = false)
    (h : leftAlignUniform rt env l tokens maxWidth = .ok (some lines, l')) :
    ∃ shown, List.Forall₂ (Sprinkled (seqs ++ seqsOf tks)) shown lines ∧
      Fills false (spacesBetween (defaultOptions opts)) (softEnd (defaultOptions opts))
        (styledSyms (splitterOf env dict (defaultOptions opts)) tks) shown := by
  obtain ⟨shown, h1, h2⟩ := C112_nothing_lost hu hf hz h
  refine ⟨shown, h1, h2.imp ?_⟩
  rintro s t (ht | ⟨ht, hr, x, hx, he⟩)
  · exact Or.inl ht
  · have no : ∀ k ∈ [0, 200, 400, -10000], x ≠ Arith.ofInt k := by
      rintro k hk rfl
      rw [hp k hk] at he
      cases he
    refine Or.inr ⟨ht, hr, ?_⟩
    cases s with
    | none => rcases hx with hx | hx <;> exact absurd hx (no _ (by simp))
    | some s =>
      cases s with
      | soft => rfl
      | hard => exact absurd hx (no _ (by simp))
      | mark => exact absurd hx (no _ (by simp))
      | gap => rcases hx with hx | hx <;> exact absurd hx (no _ (by simp))
      | part t => rcases hx with hx | hx <;> exact absurd hx (no _ (by simp))

/-- The runes other than spaces and hyphens. -/
def solid (t : List Rune) : List Rune := t.filter (fun r => decide (r ≠ 0x20 ∧ r ≠ 0x2D))

theorem solid_append (a b : List Rune) : solid (a ++ b) = solid a ++ solid b := by simp [solid]

theorem solid_lineText (n : Nat) (ss : List Sym) :
    solid (lineText (List.replicate n 0x20) ss) = solid (partsText ss) := by
  induction ss with
  | nil => rfl
  | cons s ss ih => cases s <;> simp [lineText, partsText, solid_append, ih]; simp [solid]

theorem fills_solid {n : Nat} {hy : Option Sym → List Rune → Prop} (hh : ∀ s h, hy s h → h = [] ∨ h = [0x2D]) {ss : List Sym}
    {shown : List (List Rune)} (h : Fills false (List.replicate n 0x20) hy ss shown) :
    solid shown.flatten = solid (partsText ss) := by
  have dropped : ∀ d : List Sym, (∀ t, .part t ∉ d) → partsText d = [] := by
    intro d
    induction d with
    | nil => intro _; rfl
    | cons s d ih =>
      intro h
      have := ih (fun t ht => h t (by simp [ht]))
      cases s with
      | part t => exact absurd (by simp) (h t)
      | _ => exact this
  have nohy : ∀ s h, hy s h → solid h = [] := by
    intro s h hs
    rcases hh s h hs with rfl | rfl <;> simp [solid]
  have app : ∀ a b : List Sym, partsText (a ++ b) = partsText a ++ partsText b := by
    intro a b
    induction a with
    | nil => rfl
    | cons s a ih => cases s <;> simp [partsText, ih]
  induction h with
  | last d b t h1 _ h2 =>
    simp only [List.flatten_cons, List.flatten_nil, List.append_nil]
    rw [solid_append, solid_lineText, nohy _ _ h2, app, dropped d h1]
    simp
  | line d b s t h1 _ h2 _ _ h3 _ _ ih =>
    rw [List.flatten_cons, solid_append, solid_append, solid_lineText, nohy _ _ h3, app, app, dropped d h1, ih]
    simp [solid_append]

/-- **C112.** Whatever the options, with split functions that lose no text: the letters of the lines, that is all runes but
spaces and hyphens, once the sequences are taken out, are the ones of the texts of the words. -/
theorem C112_letters (hu : AnyUsed env dict opts l seqs) (hf : List.Forall₂ (Found rt env) tokens tks)
    (hz : Arith.toInt ((defaultOptions opts).downScale (Arith.ofInt 0 : F)) ≤ 0) (hk : KeepsText (defaultOptions opts))
    (h : leftAlignUniform rt env l tokens maxWidth = .ok (some lines, l')) :
    ∃ shown, List.Forall₂ (Sprinkled (seqs ++ seqsOf tks)) shown lines ∧
      solid shown.flatten = solid (textsOf tks).flatten := by
  obtain ⟨shown, h1, h2, h3, _⟩ := align_fills (full := false) hu hf hz h (by simp)
  have e := used_gap hu
  rw [e] at h2
  refine ⟨shown, h1, ?_⟩
  obtain ⟨n, en⟩ := between_spaces (defaultOptions opts)
  rw [en] at h2
  rw [fills_solid (by rintro s t (h | ⟨h, _⟩) <;> simp [h]) h2, h3 hk]

/-- Words of one part or more: a space between words is followed by a part, and does not come last. -/
def Words (ss : List Sym) : Prop := ss.IsChain (fun a b => a = .gap → ∃ t, b = .part t) ∧ ss.getLast? ≠ some .gap

omit [Arith F] [Laws F] in
theorem spans_start (sp : Splitter) (xs : List Span) : (∃ t r, spansSyms sp xs = .part t :: r) ∨ spansSyms sp xs = [] := by
  have flat : ∀ {α : Type} (f : α → List Sym) (ys : List α), (∀ y, (∃ t r, f y = .part t :: r) ∨ f y = []) →
      (∃ t r, ys.flatMap f = .part t :: r) ∨ ys.flatMap f = [] := by
    intro α f ys h
    induction ys with
    | nil => exact Or.inr rfl
    | cons y ys ih =>
      rw [List.flatMap_cons]
      rcases h y with ⟨t, r, e⟩ | e
      · exact Or.inl ⟨t, r ++ ys.flatMap f, by rw [e]; rfl⟩
      · rw [e]; exact ih
  refine flat _ _ (fun x => flat _ _ (fun c => ?_))
  unfold chunkSyms
  split
  · exact Or.inl ⟨_, _, rfl⟩
  · split
    · exact Or.inl ⟨_, _, rfl⟩
    · refine flat _ _ (fun w => ?_)
      unfold wordSyms
      split
      · exact Or.inl ⟨_, _, rfl⟩
      · cases sp.syllables w with
        | nil => exact Or.inr rfl
        | cons a b =>
          cases b with
          | nil => exact Or.inl ⟨_, _, rfl⟩
          | cons c d => exact Or.inl ⟨_, _, rfl⟩

omit [Arith F] [Laws F] in
theorem spans_nogap (sp : Splitter) (xs : List Span) : .gap ∉ spansSyms sp xs := by
  intro h
  obtain ⟨x, _, h⟩ := List.mem_flatMap.mp h
  obtain ⟨c, _, h⟩ := List.mem_flatMap.mp h
  unfold chunkSyms at h
  split at h
  · simp at h
  · split at h
    · simp at h
    · obtain ⟨w, _, h⟩ := List.mem_flatMap.mp h
      unfold wordSyms at h
      split at h
      · simp at h
      · generalize sp.syllables w = ps at h
        induction ps with
        | nil => cases h
        | cons a b ih =>
          cases b with
          | nil => simp at h
          | cons c d =>
            simp only [List.map_cons, List.intersperse, List.mem_cons] at h ih
            rcases h with h | h | h
            · cases h
            · cases h
            · exact ih h

omit [Arith F] [Laws F] in
theorem words_styled (sp : Splitter) (tks : List (List Span)) (h : ∀ xs ∈ tks, spansSyms sp xs ≠ []) :
    Words (styledSyms sp tks) ∧ (tks ≠ [] → ∃ t r, styledSyms sp tks = .part t :: r) := by
  have one : ∀ xs, Words (spansSyms sp xs) := by
    intro xs
    have hg := spans_nogap sp xs
    generalize spansSyms sp xs = ss at hg
    refine ⟨?_, fun h => hg (List.mem_of_mem_getLast? h)⟩
    induction ss with
    | nil => simp
    | cons a b ih =>
      cases b with
      | nil => simp
      | cons c d =>
        refine List.isChain_cons_cons.mpr ⟨?_, ih (fun h => hg (by simp [h]))⟩
        rintro rfl
        exact absurd (by simp) hg
  induction tks with
  | nil => exact ⟨⟨by simp [styledSyms], by simp [styledSyms]⟩, fun h => absurd rfl h⟩
  | cons xs tks ih =>
    have hx : ∃ t r, spansSyms sp xs = .part t :: r := by
      rcases spans_start sp xs with h1 | h1
      · exact h1
      · exact absurd h1 (h xs (by simp))
    cases tks with
    | nil => exact ⟨one xs, fun _ => hx⟩
    | cons ys tks =>
      obtain ⟨ih1, ih2⟩ := ih (fun y hy => h y (by simp [hy]))
      obtain ⟨t, r, e⟩ := ih2 (by simp)
      obtain ⟨t', r', e'⟩ := hx
      have es : styledSyms sp (xs :: ys :: tks) = spansSyms sp xs ++ .gap :: styledSyms sp (ys :: tks) := rfl
      rw [es]
      refine ⟨⟨(one xs).1.append ?_ ?_, ?_⟩, fun _ => ⟨t', r' ++ .gap :: styledSyms sp (ys :: tks), by rw [e']; rfl⟩⟩
      · have h1 := ih1.1
        rw [e] at h1 ⊢
        exact List.isChain_cons_cons.mpr ⟨fun _ => ⟨t, rfl⟩, h1⟩
      · rintro x hx y _ rfl
        exact absurd hx (one xs).2
      · rw [List.getLast?_append_of_ne_nil _ (by simp), List.getLast?_cons_of_ne_nil (by rw [e]; simp)]
        exact ih1.2

omit [Arith F] [Laws F] in
theorem starts_text {g : List Rune} {ss : List Sym} (h : StartsSet ss) (hp : ∀ t, .part t ∈ ss → t ≠ [] ∧ 0x20 ∉ t) :
    (lineText g ss).head? ≠ some 0x20 := by
  induction ss with
  | nil => simp [lineText]
  | cons s ss ih =>
    have ih := fun h => ih h (fun t ht => hp t (by simp [ht]))
    cases s with
    | part t =>
      obtain ⟨h1, h2⟩ := hp t (by simp)
      cases t with
      | nil => exact absurd rfl h1
      | cons r t =>
        simp only [lineText, List.cons_append, List.head?_cons]
        intro e
        cases e
        exact h2 (by simp)
    | gap => exact h.elim
    | soft => exact ih h
    | hard => exact ih h
    | mark => exact ih h

omit [Arith F] [Laws F] in
theorem ends_text {g : List Rune} {ss : List Sym} (hc : ss.IsChain (fun a b => a = .gap → ∃ t, b = .part t))
    (hl : ss.getLast? ≠ some .gap) (hp : ∀ t, .part t ∈ ss → t ≠ [] ∧ 0x20 ∉ t) :
    (lineText g ss).getLast? ≠ some 0x20 := by
  induction ss using List.reverseRecOn with
  | nil => simp [lineText]
  | append_singleton ss s ih =>
    rw [lineText_append]
    have hc' := List.isChain_append.mp hc
    have ih := fun hl => ih hc'.1 hl (fun t ht => hp t (by simp [ht]))
    have before : (∀ t, s ≠ .part t) → ss.getLast? ≠ some .gap := by
      intro hs h
      obtain ⟨t, ht⟩ := hc'.2.2 _ h s (by simp) rfl
      exact hs t ht
    cases s with
    | part t =>
      obtain ⟨h1, h2⟩ := hp t (by simp)
      simp only [lineText, List.append_nil]
      rw [List.getLast?_append_of_ne_nil _ h1]
      exact fun h => h2 (List.mem_of_mem_getLast? h)
    | gap => exact absurd (by simp) hl
    | soft => simpa [lineText] using ih (before (by simp))
    | hard => simpa [lineText] using ih (before (by simp))
    | mark => simpa [lineText] using ih (before (by simp))

omit [Arith F] [Laws F] in
theorem fills_edges {g : List Rune} {hy : Option Sym → List Rune → Prop} (hh : ∀ s h, hy s h → h = [] ∨ h = [0x2D])
    {ss : List Sym} {shown : List (List Rune)} (h : Fills false g hy ss shown) (hw : Words ss)
    (hp : ∀ t, .part t ∈ ss → t ≠ [] ∧ 0x20 ∉ t) :
    ∀ t ∈ shown, t.head? ≠ some 0x20 ∧ t.getLast? ≠ some 0x20 := by
  have add : ∀ (a t : List Rune), (t = [] ∨ t = [0x2D]) → a.head? ≠ some 0x20 → a.getLast? ≠ some 0x20 →
      (a ++ t).head? ≠ some 0x20 ∧ (a ++ t).getLast? ≠ some 0x20 := by
    rintro a t (rfl | rfl) h1 h2
    · simpa using ⟨h1, h2⟩
    · refine ⟨?_, by simp⟩
      cases a with
      | nil => simp
      | cons x a => simpa using h1
  induction h with
  | last d b t h1 h2 h3 =>
    intro u hu
    simp only [List.mem_singleton] at hu
    subst hu
    refine add _ _ (hh _ _ h3) (starts_text h2 (fun t ht => hp t (by simp [ht])))
      (ends_text (List.isChain_append.mp hw.1).2.1 ?_ (fun t ht => hp t (by simp [ht])))
    intro hl
    have hb : b ≠ [] := by rintro rfl; cases hl
    exact hw.2 (by rw [List.getLast?_append_of_ne_nil _ hb]; exact hl)
  | @line d b s t rest lines h1 h2 h3 h4 h5 h6 _ _ ih =>
    obtain ⟨c1, c2, c3⟩ := List.isChain_append.mp hw.1
    intro u hu
    rcases List.mem_cons.mp hu with rfl | hu
    · refine add _ _ (hh _ _ h6) (starts_text h2 (fun t ht => hp t (by simp [ht])))
        (ends_text (List.isChain_append.mp c1).2.1 ?_ (fun t ht => hp t (by simp [ht])))
      intro hl
      have hb : b ≠ [] := by rintro rfl; cases hl
      have hdb : (d ++ b).getLast? = some .gap := by rw [List.getLast?_append_of_ne_nil _ hb]; exact hl
      cases s with
      | some s =>
        obtain ⟨t, ht⟩ := c3 _ hdb s (by simp) rfl
        exact h3 t (by rw [ht])
      | none =>
        rcases h5 rfl with rfl | ⟨r, rfl⟩
        · exact hw.2 (by simpa using hdb)
        · obtain ⟨t, ht⟩ := c3 _ hdb .gap (by simp) rfl
          cases ht
    · refine ih ⟨c2, ?_⟩ (fun t ht => hp t (by simp at ht ⊢; rcases ht with h | h <;> simp [h])) u hu
      intro hl
      have hb : s.toList ++ rest ≠ [] := by intro h; rw [h] at hl; cases hl
      exact hw.2 (by rw [List.getLast?_append_of_ne_nil _ hb]; exact hl)

/-- **C112.** When every word has a part, and parts are neither empty nor contain spaces, no line starts or ends with a
space, once sequences are taken out, whatever the widths. -/
theorem C112_edges (hu : AnyUsed env dict opts l seqs) (hf : List.Forall₂ (Found rt env) tokens tks)
    (hz : Arith.toInt ((defaultOptions opts).downScale (Arith.ofInt 0 : F)) ≤ 0)
    (hw : ∀ xs ∈ tks, spansSyms (splitterOf env dict (defaultOptions opts)) xs ≠ [])
    (hp : ∀ t, .part t ∈ styledSyms (splitterOf env dict (defaultOptions opts)) tks → t ≠ [] ∧ 0x20 ∉ t)
    (h : leftAlignUniform rt env l tokens maxWidth = .ok (some lines, l')) :
    ∃ shown, List.Forall₂ (Sprinkled (seqs ++ seqsOf tks)) shown lines ∧
      ∀ t ∈ shown, t.head? ≠ some 0x20 ∧ t.getLast? ≠ some 0x20 := by
  obtain ⟨shown, h1, h2⟩ := C112_nothing_lost hu hf hz h
  exact ⟨shown, h1, fills_edges (by rintro s t (h | ⟨h, _⟩) <;> simp [h]) h2 (words_styled _ _ hw).1 hp⟩

/-- The built-in split functions lose nothing and give no empty part. -/
theorem lossless_builtin {o : Options F} (h1 : o.punctuator = none) (h2 : o.hyphenator = none) :
    (splitterOf env dict o).Lossless := by
  refine ⟨?_, ?_, ?_⟩
  · intro t
    obtain ⟨parts, e1, h3⟩ := C04_punctuator_partition env t
    obtain ⟨parts', e1', h4, _⟩ := C05_punctuator_unique_split env (punctSplitFunc env) (punctSplitFunc_iff env) t
    rw [e1] at e1'
    cases e1'
    simp only [splitterOf, h1, e1, partsOf]
    refine ⟨h3, fun hm => ?_⟩
    rcases h4.kind _ hm with ⟨r, e, _⟩ | ⟨e, _⟩
    · cases e
    · exact e rfl
  · intro t
    obtain ⟨parts, e1, h3, h4, _⟩ := C07_splitWord t
    simp only [splitterOf, e1, partsOf]
    refine ⟨h3, fun hm => ?_⟩
    rcases h4.kind _ hm with ⟨r, e, _⟩ | ⟨e, _⟩
    · cases e
    · exact e rfl
  · intro _ t ht
    obtain ⟨parts, e1, _, h3⟩ := C09_hyphenator_partition env dict HOptions.default (by decide) t
    obtain ⟨parts', e1', h4⟩ := C10_no_empty_part env dict HOptions.default (by decide) (by decide) t ht
    rw [e1] at e1'
    cases e1'
    simp only [splitterOf, h2, e1, partsOf]
    exact ⟨h3, fun hm => h4 _ hm rfl⟩

omit [Arith F] [Laws F] in
theorem span_parts {sp : Splitter} (hl : sp.Lossless) {xs : List Span} (hn : 0x20 ∉ xs.flatMap Span.text) :
    (xs.flatMap Span.text ≠ [] → spansSyms sp xs ≠ []) ∧ ∀ t, .part t ∈ spansSyms sp xs → t ≠ [] ∧ 0x20 ∉ t := by
  have htok : ∀ w, chars (tokenSyms sp w) = w.map Ch.rune ∧ .part [] ∉ tokenSyms sp w := by
    intro w
    by_cases h : w = []
    · subst h; rw [tokenSyms_nil hl]; exact ⟨rfl, by simp⟩
    · exact ⟨(token_token hl w h).2, (token_token hl w h).1.full⟩
  constructor
  · intro hx he
    apply hx
    rw [List.flatMap_eq_nil_iff]
    intro x hx
    have h1 : tokenSyms sp x.text = [] := List.flatMap_eq_nil_iff.mp he x hx
    have h2 := (htok x.text).1
    rw [h1] at h2
    exact List.map_eq_nil_iff.mp h2.symm
  · intro t ht
    obtain ⟨x, hx, ht⟩ := List.mem_flatMap.mp ht
    refine ⟨by rintro rfl; exact (htok x.text).2 ht, fun hs => hn (List.mem_flatMap.mpr ⟨x, hx, ?_⟩)⟩
    have h2 := (htok x.text).1
    have h3 : Ch.rune 0x20 ∈ chars (tokenSyms sp x.text) := by
      obtain ⟨a, b, e⟩ := List.append_of_mem ht
      rw [e, chars_append, chars_cons]
      exact List.mem_append_right _ (List.mem_append_left _ (List.mem_map.mpr ⟨_, hs, rfl⟩))
    rw [h2] at h3
    obtain ⟨r, hr, e⟩ := List.mem_map.mp h3
    cases e
    exact hr

/-- **C112.** With the built-in split functions, words with some text and no spaces give lines that neither start nor end
with a space, once sequences are taken out, whatever the widths. -/
theorem C112_trimmed (hu : AnyUsed env dict opts l seqs) (hf : List.Forall₂ (Found rt env) tokens tks)
    (hz : Arith.toInt ((defaultOptions opts).downScale (Arith.ofInt 0 : F)) ≤ 0)
    (hb : (defaultOptions opts).punctuator = none ∧ (defaultOptions opts).hyphenator = none)
    (ht : ∀ xs ∈ tks, xs.flatMap Span.text ≠ [] ∧ 0x20 ∉ xs.flatMap Span.text)
    (h : leftAlignUniform rt env l tokens maxWidth = .ok (some lines, l')) :
    ∃ shown, List.Forall₂ (Sprinkled (seqs ++ seqsOf tks)) shown lines ∧
      ∀ t ∈ shown, t.head? ≠ some 0x20 ∧ t.getLast? ≠ some 0x20 := by
  have hl : (splitterOf env dict (defaultOptions opts)).Lossless := lossless_builtin hb.1 hb.2
  refine C112_edges hu hf hz (fun xs hx => (span_parts hl (ht xs hx).2).1 (ht xs hx).1) (fun t hm => ?_) h
  have : ∃ xs ∈ tks, .part t ∈ spansSyms (splitterOf env dict (defaultOptions opts)) xs := by
    clear hf ht h hz
    induction tks with
    | nil => cases hm
    | cons w ws ih =>
      cases ws with
      | nil => exact ⟨w, by simp, hm⟩
      | cons v vs =>
        simp only [styledSyms, List.mem_append, List.mem_cons, reduceCtorEq, false_or] at hm
        rcases hm with hm | hm
        · exact ⟨w, by simp, hm⟩
        · obtain ⟨x, hx, h⟩ := ih hm
          exact ⟨x, List.mem_cons_of_mem _ hx, h⟩
  obtain ⟨xs, hx, hm⟩ := this
  exact (span_parts hl (ht xs hx).2).2 t hm

end

/-! ## Float64 -/

theorem zero_quotient64 (x : F64) : F64.toInt (F64.round (F64.div (Arith.ofInt 0) x)) ≤ 0 := by
  have h0 : (Arith.ofInt 0 : F64) = F64.zero false := by
    rw [F64.ofInt_eq (by decide : |(0 : Int)| ≤ 2 ^ 53)]
    exact F64.fin_congr (by simp) (by simp)
  have hr : ∀ s, F64.toInt (F64.round (F64.zero s)) ≤ 0 := by
    intro s
    have : F64.round (F64.zero s) = F64.pack s (ratRound 0) := rfl
    rw [this, show ratRound 0 = ((0 : Int) : Rat) from ratRound_int 0]
    simp only [Int.cast_zero]
    rw [F64.pack_exact F64.isDouble_zero s (fun h => absurd rfl h)]
    cases s <;> decide
  rw [h0]
  cases x with
  | nan => decide
  | inf t => exact hr _
  | fin t q h1 h2 =>
    have e : F64.div (F64.zero false) (F64.fin t q h1 h2) =
        if q = 0 then F64.nan else F64.pack (false != t) (0 / q) := by
      unfold F64.zero F64.div
      simp
    rw [e]
    split
    · decide
    · rw [zero_div, F64.pack_exact F64.isDouble_zero _ (fun h => absurd rfl h)]
      exact hr _

theorem zero_scaled64 (o : Options F64) : Arith.toInt (o.downScale (Arith.ofInt 0 : F64)) ≤ 0 := by
  have h := zero_quotient64 o.scaleFactor
  generalize (Arith.ofInt 0 : F64) = z at h ⊢
  exact h

/-- **C112** in float64, for all options: nothing is lost, whatever the numbers returned by the measurer (infinities and
NaN included), the width and the scale. -/
theorem C112_float64 {rt : Runtime} {env : Env} {dict : Dictionary} {opts : List (Opt F64)} {l l' : LineBreaker F64}
    {seqs : List (List Rune)} {tokens : List (List Rune)} {tks : List (List Span)} {maxWidth : F64} {lines : List (List Rune)}
    (hu : AnyUsed env dict opts l seqs) (hf : List.Forall₂ (Found rt env) tokens tks)
    (h : leftAlignUniform rt env l tokens maxWidth = .ok (some lines, l')) :
    ∃ shown, List.Forall₂ (Sprinkled (seqs ++ seqsOf tks)) shown lines ∧
      Fills false (spacesBetween (defaultOptions opts)) (mayEnd (defaultOptions opts))
        (styledSyms (splitterOf env dict (defaultOptions opts)) tks) shown ∧
      (KeepsText (defaultOptions opts) → solid shown.flatten = solid (textsOf tks).flatten) := by
  have hz : Arith.toInt ((defaultOptions opts).downScale (Arith.ofInt 0 : F64)) ≤ 0 := zero_scaled64 _
  obtain ⟨shown, h1, h2, h3, _⟩ := align_fills (full := false) hu hf hz h (by simp)
  have e := used_gap hu
  rw [e] at h2
  refine ⟨shown, h1, h2.imp (fun s h hm => used_mayEnd hu s h hm.1), fun hk => ?_⟩
  obtain ⟨n, en⟩ := between_spaces (defaultOptions opts)
  rw [en] at h2
  rw [fills_solid (by rintro s t (h | ⟨h, _⟩) <;> simp [h]) h2, h3 hk]

/-- A measurer that gives a negative width to texts of 3 runes. -/
def below64 : Opt F64 := .measurer (fun rs => if rs.length = 3 then Arith.ofInt (-7) else Arith.ofInt rs.length)

/-- A measurer that gives no number for texts of 3 runes. -/
def nan64 : Opt F64 := .measurer (fun rs => if rs.length = 3 then F64.nan else Arith.ofInt rs.length)

/-- A measurer that gives a third to each rune. -/
def third64 : Opt F64 := .measurer (fun rs => Arith.div (Arith.ofInt rs.length) (Arith.ofInt 3))

theorem linesOf64_ok {rt : Runtime} {l : LineBreaker F64} {tokens : List String} {w : Int} {r : Option (List (List Rune))}
    (h : linesOf64 rt l tokens w = .ok r) :
    ∃ l', leftAlignUniform rt Env.ascii l (tokens.map runesOf) (Arith.ofInt w) = .ok (r, l') := by
  unfold linesOf64 at h
  cases e : leftAlignUniform rt Env.ascii l (tokens.map runesOf) (Arith.ofInt w) with
  | error p => rw [e] at h; cases h
  | ok p => rw [e] at h; exact ⟨p.2, congrArg Except.ok (Prod.ext (Except.ok.inj h) rfl)⟩

/-- Words of the cases below. -/
def oddWords : List String := ["aabb", "foobar", "abc", "dddd,", "eeee"]

/-- **C112**, cases: with negative widths, a word is cut and lines are too long; without numbers, there is one line; with
widths below one half for a space, no space is left between words. No letter is lost. -/
theorem C112_odd_widths :
    linesOf64 forward (new Env.ascii (dictOf sampleLines) [below64]) oddWords 4 =
      .ok (some (["aabb", "fo-", "obar", "abc dddd, eeee"].map runesOf)) ∧
    linesOf64 forward (new Env.ascii (dictOf sampleLines) [nan64]) oddWords 4 =
      .ok (some (["aabb foobar abc dddd, eeee"].map runesOf)) ∧
    linesOf64 forward (new Env.ascii (dictOf sampleLines) [third64]) oddWords 2 =
      .ok (some (["aabbfo-", "obarabc", "dddd,eeee"].map runesOf)) := by
  refine ⟨by decide +kernel, by decide +kernel, by decide +kernel⟩

/-- The hypotheses of `C112_float64` for the first of these cases. -/
theorem C112_case : ∃ shown l', 
    leftAlignUniform forward Env.ascii (new Env.ascii (dictOf sampleLines) [below64]) (oddWords.map runesOf) (Arith.ofInt 4) =
      .ok (some (["aabb", "fo-", "obar", "abc dddd, eeee"].map runesOf), l') ∧
    List.Forall₂ (Sprinkled ([] ++ seqsOf (oddWords.map fun w => [⟨[], runesOf w, []⟩]))) shown
      (["aabb", "fo-", "obar", "abc dddd, eeee"].map runesOf) ∧
    Fills false [0x20] (mayEnd (defaultOptions [below64]))
      (styledSyms (splitterOf Env.ascii (dictOf sampleLines) (defaultOptions [below64]))
        (oddWords.map fun w => [⟨[], runesOf w, []⟩])) shown ∧
    solid shown.flatten = runesOf "aabbfoobarabcdddd,eeee" ∧
    (∃ shown, List.Forall₂ (Sprinkled ([] ++ seqsOf (oddWords.map fun w => [⟨[], runesOf w, []⟩]))) shown
        (["aabb", "fo-", "obar", "abc dddd, eeee"].map runesOf) ∧
      ∀ t ∈ shown, t.head? ≠ some 0x20 ∧ t.getLast? ≠ some 0x20) := by
  obtain ⟨l', h⟩ := linesOf64_ok C112_odd_widths.1
  have hf : List.Forall₂ (Found forward Env.ascii) (oddWords.map runesOf) (oddWords.map fun w => [⟨[], runesOf w, []⟩]) :=
    .cons (found_run (by decide +kernel)) (.cons (found_run (by decide +kernel)) (.cons (found_run (by decide +kernel))
      (.cons (found_run (by decide +kernel)) (.cons (found_run (by decide +kernel)) .nil))))
  obtain ⟨shown, h1, h2, h3⟩ := C112_float64 .new hf h
  rw [show spacesBetween (defaultOptions [below64]) = [0x20] by decide +kernel] at h2
  refine ⟨shown, l', h, h1, h2, (h3 ⟨?_, ?_⟩).trans (by decide +kernel),
    C112_trimmed .new hf (zero_scaled64 _) ⟨rfl, rfl⟩ (by decide +kernel) h⟩
  · intro f h
    cases h
  · intro f h
    cases h

end Verif.Props
