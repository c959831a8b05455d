import Verif.Spec.Linebreak
import Verif.Proofs.LBPlain
import Verif.Proofs.LBText
import Verif.Props.Words
import Verif.Props.Hyphenation

/-! # Line breakers made by New -/

set_option linter.unusedSectionVars false
set_option linter.unusedSimpArgs false

namespace Verif.Proofs.LB
open Verif.Go Verif.Model Verif.Model.LB Verif.Spec Verif.Spec.Ansi Verif.Spec.LB Verif.Props

variable {F : Type} [Arith F]

/-- The options that no function changes. -/
theorem fixed_options (opts : List (Opt F)) :
    (defaultOptions opts).badness = Arith.ofInt 100 ∧ (defaultOptions opts).demeritsLine = Arith.ofInt 10 ∧
    (defaultOptions opts).demeritsFitness = Arith.ofInt 200 ∧ (defaultOptions opts).hardHyphenPenalty = Arith.ofInt 200 ∧
    (defaultOptions opts).punctuationPenalty = Arith.ofInt 400 ∧ (defaultOptions opts).minHyphenate = 4 ∧
    (defaultOptions opts).glueStretch = Arith.ofInt 6 ∧
    ((defaultOptions opts).demeritsFlagged = Arith.ofInt 100 ∨
      (defaultOptions opts).demeritsFlagged = (defaultOptions opts).hyphenPenalty) := by
  have key : ∀ (opts : List (Opt F)) (o : Options F), (o.badness = Arith.ofInt 100 ∧ o.demeritsLine = Arith.ofInt 10 ∧
      o.demeritsFitness = Arith.ofInt 200 ∧ o.hardHyphenPenalty = Arith.ofInt 200 ∧
      o.punctuationPenalty = Arith.ofInt 400 ∧ o.minHyphenate = 4 ∧ o.glueStretch = Arith.ofInt 6 ∧
      ((o.demeritsFlagged = Arith.ofInt 100) ∨ o.demeritsFlagged = o.hyphenPenalty)) →
      let o' := opts.foldl Opt.apply o
      (o'.badness = Arith.ofInt 100 ∧ o'.demeritsLine = Arith.ofInt 10 ∧
      o'.demeritsFitness = Arith.ofInt 200 ∧ o'.hardHyphenPenalty = Arith.ofInt 200 ∧
      o'.punctuationPenalty = Arith.ofInt 400 ∧ o'.minHyphenate = 4 ∧ o'.glueStretch = Arith.ofInt 6 ∧
      ((o'.demeritsFlagged = Arith.ofInt 100) ∨ o'.demeritsFlagged = o'.hyphenPenalty)) := by
    intro opts
    induction opts with
    | nil => intro o h; exact h
    | cons x opts ih =>
      intro o h
      refine ih (Opt.apply o x) ?_
      obtain ⟨h1, h2, h3, h4, h5, h6, h7, h8⟩ := h
      cases x <;> simp only [Opt.apply, or_true] <;> simp_all
  exact key opts defaults ⟨rfl, rfl, rfl, rfl, rfl, rfl, rfl, Or.inl rfl⟩

/-- A used line breaker differs from a new one by its list of attributes. -/
structure Kept (env : Env) (dict : Dictionary) (opts : List (Opt F)) (l : LineBreaker F) : Prop where
  same : l = { (new env dict opts : LineBreaker F) with attrList := l.attrList }
  plain : ∃ L, Plain L ∧ l.attrList = lv 0 L

variable [Laws F]

section
variable {env : Env} {dict : Dictionary} {opts : List (Opt F)} {text : List Rune → Int} {n : Nat}

theorem lossless (hs : Sane (defaultOptions opts) text n) :
    (splitterOf env dict (defaultOptions opts)).Lossless := by
  refine ⟨?_, ?_, ?_⟩
  · intro t
    simp only [splitterOf]
    cases h : (defaultOptions opts).punctuator with
    | some f =>
      obtain ⟨parts, h1, h2, h3⟩ := hs.punctuator f h t
      simp only [h1, partsOf]
      exact ⟨h2, h3⟩
    | none =>
      obtain ⟨parts, h1, h2⟩ := C04_punctuator_partition env t
      obtain ⟨parts', h1', h3, _⟩ := C05_punctuator_unique_split env (punctSplitFunc env) (punctSplitFunc_iff env) t
      rw [h1] at h1'
      cases h1'
      simp only [h1, partsOf]
      refine ⟨h2, fun hm => ?_⟩
      rcases h3.kind _ hm with ⟨r, e, _⟩ | ⟨e, _⟩
      · cases e
      · exact e rfl
  · intro t
    obtain ⟨parts, h1, h2, h3, _⟩ := C07_splitWord t
    simp only [splitterOf, h1, partsOf]
    refine ⟨h2, fun hm => ?_⟩
    rcases h3.kind _ hm with ⟨r, e, _⟩ | ⟨e, _⟩
    · cases e
    · exact e rfl
  · intro _ t ht
    simp only [splitterOf]
    cases h : (defaultOptions opts).hyphenator with
    | some f =>
      obtain ⟨parts, h1, h2, h3, h4⟩ := hs.hyphenator f h t
      simp only [h1, partsOf]
      exact ⟨h3, h4 ht⟩
    | none =>
      obtain ⟨parts, h1, _, h2⟩ := C09_hyphenator_partition env dict HOptions.default (by decide) t
      obtain ⟨parts', h1', h3⟩ := C10_no_empty_part env dict HOptions.default (by decide) (by decide) t ht
      rw [h1] at h1'
      cases h1'
      simp only [h1, partsOf]
      exact ⟨h2, fun hm => h3 _ hm rfl⟩

theorem splits_new (hs : Sane (defaultOptions opts) text n) :
    Splits env (new env dict opts) (splitterOf env dict (defaultOptions opts)) := by
  obtain ⟨_, _, _, _, _, h6, _⟩ := fixed_options opts
  refine ⟨?_, fun _ => rfl, ?_, fun _ => rfl, ?_, ?_, rfl, h6⟩
  · intro t
    simp only [splitterOf, new]
    cases h : (defaultOptions opts).punctuator with
    | some f =>
      obtain ⟨parts, h1, h2⟩ := hs.punctuator f h t
      simp only [callSplit, h1, partsOf]
    | none =>
      obtain ⟨parts, h1, h2⟩ := C04_punctuator_partition env t
      simp only [callSplit, h1, partsOf]
  · intro t
    obtain ⟨parts, h1, _⟩ := C07_splitWord t
    simp only [splitterOf, h1, partsOf]
  · intro hw t
    have hw : (defaultOptions opts).wordBreak = true := hw
    simp only [splitterOf, new]
    cases h : (defaultOptions opts).hyphenator with
    | some f =>
      obtain ⟨parts, h1, h2⟩ := hs.hyphenator f h t
      simp only [callSplit, h1, partsOf]
    | none =>
      obtain ⟨parts, h1, _⟩ := C09_hyphenator_partition env dict HOptions.default (by decide) t
      have e : ({ HOptions.default with minLength := (defaultOptions opts).minHyphenate } : HOptions) = HOptions.default := by
        rw [h6]; rfl
      simp only [hw, if_true, callSplit, e, h1, partsOf]
  · intro _ t
    simp only [splitterOf]
    cases h : (defaultOptions opts).hyphenator with
    | some f =>
      obtain ⟨parts, h1, h2, _⟩ := hs.hyphenator f h t
      simp only [h1, partsOf]
      exact h2
    | none =>
      obtain ⟨parts, h1, h2, _⟩ := C09_hyphenator_partition env dict HOptions.default (by decide) t
      simp only [h1, partsOf]
      exact h2

theorem setup_new (hs : Sane (defaultOptions opts) text n) :
    Setup (new env dict opts) (measureOf (defaultOptions opts) text) := by
  obtain ⟨h1, h2, h3, h4, h5, h6, h7, h8⟩ := fixed_options opts
  refine ⟨h7, hs.widths, hs.nonneg, hs.widths _, hs.nonneg _, ?_, ?_, rfl, h5, h4, hs.finite, hs.notForced⟩
  · simp only [new, measureOf]
    split
    · exact hs.widths _
    · rfl
  · simp only [measureOf]
    split
    · exact hs.nonneg _
    · exact le_refl _

theorem usual_new (hs : Sane (defaultOptions opts) text n) : Usual (new env dict opts).toOptions := by
  obtain ⟨h1, h2, h3, h4, h5, h6, h7, h8⟩ := fixed_options opts
  refine ⟨h2, h1, h3, ?_, hs.penalty, hs.tolerance⟩
  show Within (defaultOptions opts).demeritsFlagged 10000
  rcases h8 with h8 | h8
  · rw [h8]; exact within_int 100 10000 (by decide) (by decide) (by decide)
  · rw [h8]; exact hs.penalty

omit [Laws F] in
theorem repeat_space (k : Nat) (hk : k ≤ 2 ^ 46) : repeatRunes Model.LB.space (k : Int) = .ok (List.replicate k 0x20) := by
  unfold repeatRunes
  by_cases h : k = 0
  · subst h; simp
  · rw [if_neg (by simp [Model.LB.space, h]), if_neg (by simp only [Model.LB.space, maxRunes, List.length_cons, List.length_nil]; omega)]
    simp only [Int.toNat_natCast, Model.LB.space]
    congr 1
    clear h hk
    induction k with
    | zero => rfl
    | succ k ih => rw [List.replicate_succ, List.flatten_cons, ih]; rfl

theorem pads_new (hs : Sane (defaultOptions opts) text n) :
    Pads (new env dict opts).toOptions (measureOf (defaultOptions opts) text) (List.replicate n 0x20) := by
  refine ⟨hs.small, ?_, ?_⟩
  · have : Arith.toInt ((new env dict opts).toOptions.downScale (Arith.ofInt 0)) = 0 := hs.noPad
    rw [this]; exact repeat_space 0 (by decide)
  · have : Arith.toInt ((new env dict opts).toOptions.downScale (Arith.ofInt (text [0x20]))) = n := hs.pad
    show repeatRunes Model.LB.space (Arith.toInt ((new env dict opts).toOptions.downScale (Arith.ofInt (text [0x20])))) = _
    rw [this]; exact repeat_space n hs.room

theorem kept_lift {l : LineBreaker F} (hk : Kept env dict opts l) {P : LineBreaker F → Prop}
    (hP : ∀ l a, P l → P { l with attrList := a }) (h : P (new env dict opts)) : P l := by
  rw [hk.same]; exact hP _ _ h

theorem Kept.splits {l : LineBreaker F} (hk : Kept env dict opts l) (hs : Sane (defaultOptions opts) text n) :
    Splits env l (splitterOf env dict (defaultOptions opts)) :=
  kept_lift hk (P := fun l => Splits env l (splitterOf env dict (defaultOptions opts)))
    (fun _ _ h => ⟨h.marks, h.isMark, h.hyphens, h.isHyphen, h.syllables, h.parts, h.breakWords, h.short⟩) (splits_new hs)

theorem Kept.setup {l : LineBreaker F} (hk : Kept env dict opts l) (hs : Sane (defaultOptions opts) text n) :
    Setup l (measureOf (defaultOptions opts) text) :=
  kept_lift hk (P := fun l => Setup l (measureOf (defaultOptions opts) text))
    (fun _ _ h => ⟨h.stretch, h.text, h.text_nonneg, h.space, h.space_nonneg, h.hyphen, h.hyphen_nonneg, h.addHyphens,
      h.punct, h.hard, h.finite, h.minus⟩) (setup_new hs)

theorem Kept.options {l : LineBreaker F} (hk : Kept env dict opts l) : l.toOptions = (new env dict opts).toOptions :=
  kept_lift hk (P := fun l => l.toOptions = (new env dict opts).toOptions) (fun _ _ h => h) rfl

end

/-- Calls keep line breakers as they were but for the attributes. -/
theorem align_kept {rt : Runtime} {env : Env} {l l' : LineBreaker F} {tokens : List (List Rune)} {maxWidth : F}
    {r : Option (List (List Rune))} (h : leftAlignUniform rt env l tokens maxWidth = .ok (r, l')) :
    ∃ nodes attrs, leftAlignedNodes rt env l tokens = .ok (nodes, attrs) ∧ l' = { l with attrList := attrs } := by
  unfold leftAlignUniform at h
  cases h1 : leftAlignedNodes rt env l tokens with
  | error e => rw [h1] at h; cases h
  | ok p =>
    rw [h1] at h
    refine ⟨p.1, p.2, rfl, ?_⟩
    simp only [bind, Except.bind] at h
    split at h
    · cases h
    · split at h
      · cases h; rfl
      · split at h
        · cases h
        · cases h; rfl

theorem kept_used {env : Env} {dict : Dictionary} {opts : List (Opt F)} {text : List Rune → Int} {n : Nat}
    (hs : Sane (defaultOptions opts) text n) (hd : AsciiDigits env) {l : LineBreaker F} (h : Used env dict opts l) :
    Kept env dict opts l := by
  induction h with
  | new => exact ⟨rfl, [], .nil, rfl⟩
  | @call l l' rt tokens maxWidth r _ ht hr ih =>
    obtain ⟨nodes, attrs, h1, rfl⟩ := align_kept hr
    obtain ⟨L, hL, hl⟩ := ih.plain
    refine ⟨?_, ?_⟩
    · have := ih.same
      show ({ l with attrList := attrs } : LineBreaker F) = _
      rw [this]
    · by_cases hne : tokens = []
      · subst hne
        unfold leftAlignedNodes tokensLoop at h1
        cases h1
        exact ⟨L, hL, hl⟩
      · rw [leftAlignedNodes_eq (ih.splits hs) (measureOf (defaultOptions opts) text) tokens _ (strips_all rt hd tokens ht) hne L hl] at h1
        cases h1
        refine ⟨_, hL.append ?_, rfl⟩
        rw [parPieces_bare]; exact plain_map _

section
variable {rt : Runtime} {env : Env} {dict : Dictionary} {opts : List (Opt F)} {text : List Rune → Int} {n : Nat}
  {l : LineBreaker F} {tokens : List (List Rune)} {maxWidth : F} {W : Int}

/-- **Escape-free paragraphs.** -/
theorem call_exact (c : Call rt env dict opts text n l tokens maxWidth W) (hpos : 0 < W)
    (hstart : StartsWithPart (paraSyms (splitterOf env dict (defaultOptions opts)) tokens)) :
    ∃ l', (¬ Settable (measureOf (defaultOptions opts) text) W (okRatio (defaultOptions opts))
          (paraSyms (splitterOf env dict (defaultOptions opts)) tokens) ∧
        leftAlignUniform rt env l tokens maxWidth = .ok (none, l')) ∨
      (Settable (measureOf (defaultOptions opts) text) W (okRatio (defaultOptions opts))
          (paraSyms (splitterOf env dict (defaultOptions opts)) tokens) ∧
        ∃ lines, Layout (hyOf (new env dict opts)) (Acceptable (measureOf (defaultOptions opts) text) W
            (okRatio (defaultOptions opts))) false true
            (paraSyms (splitterOf env dict (defaultOptions opts)) tokens) lines ∧
          leftAlignUniform rt env l tokens maxWidth =
            .ok (some (lines.map (Line.text (List.replicate n 0x20))), l') ∧
          (W ≤ 4997 → Acceptable (measureOf (defaultOptions opts) text) W (okRatio (defaultOptions opts)) true
            (paraSyms (splitterOf env dict (defaultOptions opts)) tokens) none → lines.length = 1) ∧
          LayoutR (hyOf (new env dict opts)) (fun f p s r =>
            Acceptable (measureOf (defaultOptions opts) text) W (okRatio (defaultOptions opts)) f p s ∧
            Earliest (Acceptable (measureOf (defaultOptions opts) text) W (okRatio (defaultOptions opts)))
              (looseness F (measureOf (defaultOptions opts) text) W)
              (paraSyms (splitterOf env dict (defaultOptions opts)) tokens) f p s r) false true
            (paraSyms (splitterOf env dict (defaultOptions opts)) tokens) lines) := by
  have hk := kept_used c.sane c.digits c.used
  obtain ⟨L, hL, hl⟩ := hk.plain
  have hne : tokens ≠ [] := by
    rintro rfl
    obtain ⟨t, r, e⟩ := hstart
    cases e
  have ho := hk.options
  have hsy : syms (parBlocks (splitterOf env dict (defaultOptions opts)) (tokens.map bare)) =
      paraSyms (splitterOf env dict (defaultOptions opts)) tokens := by
    rw [parBlocks_bare, syms_paraBlocks]
  have hu : Usual l.toOptions := ho ▸ usual_new c.sane
  have hhy : hyOf l = hyOf (new env dict opts) := by
    funext s; cases s <;> simp [hyOf, penOf, ho]
  have hok : okRatio l.toOptions = okRatio (defaultOptions opts) := by rw [ho]; rfl
  have := align_exact (rt := rt) c.walks (hk.splits c.sane) (hk.setup c.sane) tokens _ (strips_all rt c.digits tokens c.escapeFree) hne L hl
    maxWidth W (by rw [ho]; exact c.scaled) hpos (List.replicate n 0x20) (by rw [ho]; exact pads_new c.sane) hu.tol
    (hu.tame (hk.setup c.sane)) (by rw [hsy]; exact hstart) (by rw [hsy]; exact c.exact)
  rw [hsy, hok] at this
  rcases this with ⟨h1, h2⟩ | ⟨h1, segs, lines, h2, h3, h4, h5, h6, h7, h8⟩
  · exact ⟨_, Or.inl ⟨h1, h2⟩⟩
  · rw [render_bare (hk.setup c.sane) _ tokens L hL _ segs lines h3 h5] at h6
    exact ⟨_, Or.inr ⟨h1, lines, hhy ▸ h2, h6, h7, hhy ▸ h8⟩⟩

/-- Escape-free paragraphs of any kind, in any width. -/
theorem call_structure (c : Call rt env dict opts text n l tokens maxWidth W) (hne : tokens ≠ []) :
    leftAlignUniform rt env l tokens maxWidth = .error .slice ∨ ∃ l',
      leftAlignUniform rt env l tokens maxWidth = .ok (none, l') ∨
      ∃ lines, Layout (hyOf (new env dict opts)) (Fits (measureOf (defaultOptions opts) text) W) true true
            (startLine (paraSyms (splitterOf env dict (defaultOptions opts)) tokens)) lines ∧
          leftAlignUniform rt env l tokens maxWidth =
            .ok (some (lines.map (Line.text (List.replicate n 0x20))), l') := by
  have hk := kept_used c.sane c.digits c.used
  obtain ⟨L, hL, hl⟩ := hk.plain
  have ho := hk.options
  have hsy : syms (parBlocks (splitterOf env dict (defaultOptions opts)) (tokens.map bare)) =
      paraSyms (splitterOf env dict (defaultOptions opts)) tokens := by
    rw [parBlocks_bare, syms_paraBlocks]
  have hu : Usual l.toOptions := ho ▸ usual_new c.sane
  have hhy : hyOf l = hyOf (new env dict opts) := by
    funext s; cases s <;> simp [hyOf, penOf, ho]
  have := align_structure (rt := rt) (hk.splits c.sane) (hk.setup c.sane) tokens _ (strips_all rt c.digits tokens c.escapeFree) hne L hl
    maxWidth W (by rw [ho]; exact c.scaled) (List.replicate n 0x20) (by rw [ho]; exact pads_new c.sane) hu.tol.finite
    (by rw [hsy]; exact c.exact)
  rw [hsy] at this
  rcases this with h | h | ⟨segs, lines, h2, h3, h4, h5, h6⟩
  · exact Or.inl h
  · exact Or.inr ⟨_, Or.inl h⟩
  · rw [render_bare (hk.setup c.sane) _ tokens L hL _ segs lines h3 h5] at h6
    exact Or.inr ⟨_, Or.inr ⟨lines, hhy ▸ h2, h6⟩⟩

end

end Verif.Proofs.LB
