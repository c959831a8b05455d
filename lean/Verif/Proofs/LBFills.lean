import Verif.Spec.Fills
import Verif.Proofs.LBHistory
import Verif.Proofs.LBLines
import Mathlib.Data.List.Chain

/-! # Lines show all parts of a paragraph, whatever the widths -/

namespace Verif.Proofs.LB
open Verif.Go Verif.Model Verif.Model.LB Verif.Spec Verif.Spec.Ansi Verif.Spec.LB Verif.Props

variable {F : Type} [Arith F]

set_option linter.unusedSectionVars false

/-! ## Nodes and what they are made of -/

/-- The splitter describes the functions of the line breaker, where they return. -/
structure Describes (env : Env) (l : LineBreaker F) (sp : Splitter) : Prop where
  marks : ∀ t parts, callSplit l.punctuator t = .ok parts → sp.marks t = parts
  isMark : ∀ t, isPunctuation env t = sp.isMark t
  hyphens : ∀ t parts, splitWord t = .ok parts → sp.hyphens t = parts
  isHyphen : ∀ t, isHyphen t = sp.isHyphen t
  syllables : l.wordBreak = true → ∀ t parts, callSplit l.hyphenator t = .ok parts → sp.syllables t = parts
  breakWords : l.wordBreak = sp.breakWords
  short : l.minHyphenate = sp.short
  stretch : l.glueStretch = Arith.ofInt 6
  hard : l.hardHyphenPenalty = Arith.ofInt 200
  mark : l.punctuationPenalty = Arith.ofInt 400

/-- The split functions of the line breaker lose no text. -/
def Lossless (l : LineBreaker F) : Prop :=
  (∀ t parts, callSplit l.punctuator t = .ok parts → parts.flatten = t) ∧
  (l.wordBreak = true → ∀ t parts, callSplit l.hyphenator t = .ok parts → parts.flatten = t)

/-- What is known of a node and its symbol. -/
def NodeOf (l : LineBreaker F) (x : Node F × Option Sym) : Prop :=
  match x.1.kind with
  | .box => x.2 = some (.part x.1.value) ∧ x.1.attr = none
  | .glue => (x.2 = some .gap ∧ x.1.sums = ⟨l.spaceWidth, Arith.neg l.glueStretch, zero⟩) ∨
      (x.2 = none ∧ ∃ st, (st = l.glueStretch ∨ st = Arith.neg l.glueStretch ∨ st = infinity) ∧ x.1.sums = ⟨zero, st, zero⟩)
  | .penalty => (∀ t, x.2 ≠ some (.part t)) ∧ x.2 ≠ some .gap ∧
      (Arith.eq x.1.penalty infinity = true ∨ placePenalty l.toOptions x.2 x.1.penalty)

/-- No space between words comes after a box. -/
def NotAfterBox (x y : Node F × Option Sym) : Prop := y.2 = some .gap → x.1.kind ≠ .box

/-- The symbols of nodes. -/
def symsOf (T : List (Node F × Option Sym)) : List Sym := T.filterMap Prod.snd

/-- A node without symbol where a line may end is in a space between words; the first argument tells that the node before
is a box, or not known. -/
def Ends : Bool → List (Node F × Option Sym) → Prop
  | _, [] => True
  | b, (x, tag) :: V =>
    (tag = none → (x.kind = .glue ∧ b = true) ∨ (x.kind = .penalty ∧ Arith.eq x.penalty infinity = false) →
      ∃ V', symsOf V = .gap :: V') ∧ Ends (decide (x.kind = .box)) V

theorem Ends.mono {T : List (Node F × Option Sym)} (h : Ends true T) (b : Bool) : Ends b T := by
  cases T with
  | nil => exact True.intro
  | cons x V =>
    obtain ⟨x, tag⟩ := x
    refine ⟨fun ht hl => h.1 ht ?_, h.2⟩
    rcases hl with ⟨h1, _⟩ | h1
    · exact Or.inl ⟨h1, rfl⟩
    · exact Or.inr h1

theorem Ends.append {b : Bool} {T T' : List (Node F × Option Sym)} (h : Ends b T) (h' : Ends true T') : Ends b (T ++ T') := by
  induction T generalizing b with
  | nil => exact h'.mono b
  | cons x V ih =>
    obtain ⟨x, tag⟩ := x
    refine ⟨fun ht hl => ?_, ih h.2⟩
    obtain ⟨V', e⟩ := h.1 ht hl
    refine ⟨V' ++ symsOf T', ?_⟩
    have : symsOf (V ++ T') = symsOf V ++ symsOf T' := by simp [symsOf]
    exact this.trans (by rw [e]; rfl)

theorem Ends.at {b : Bool} {T U V : List (Node F × Option Sym)} {x : Node F} (h : Ends b T) (e : T = U ++ (x, none) :: V)
    (hl : LegalAt (U.map Prod.fst).getLast? x) : ∃ V', symsOf V = .gap :: V' := by
  induction U generalizing b T with
  | nil =>
    subst e
    refine h.1 rfl ?_
    rcases hl with ⟨_, h2⟩ | h2
    · cases h2
    · exact Or.inr h2
  | cons y U ih =>
    subst e
    obtain ⟨y, t⟩ := y
    cases U with
    | nil =>
      refine h.2.1 rfl ?_
      rcases hl with ⟨h1, h2⟩ | h2
      · simp only [List.map_cons, List.map_nil, List.getLast?_singleton, Option.map_some, Option.some.injEq] at h2
        exact Or.inl ⟨h1, by simp [h2]⟩
      · exact Or.inr h2
    | cons z U =>
      refine ih h.2 rfl ?_
      simpa using hl

/-- A place where a word is cut is followed by a part of the word. -/
def SoftPart (a b : Sym) : Prop := a = .soft → ∃ t, b = .part t

/-- Symbols of whole words. -/
def Entire (ss : List Sym) : Prop := ss.IsChain SoftPart ∧ ss.getLast? ≠ some .soft

theorem Entire.append {a b : List Sym} (h : Entire a) (h' : Entire b) : Entire (a ++ b) := by
  refine ⟨h.1.append h'.1 ?_, ?_⟩
  · rintro x hx y _ rfl
    exact absurd hx h.2
  · cases b with
    | nil => simpa using h.2
    | cons y b =>
      rw [List.getLast?_append_of_ne_nil _ (by simp)]
      exact h'.2

theorem Entire.nil : Entire [] := ⟨by simp, by simp⟩

theorem Entire.flatMap {α : Type} (f : α → List Sym) (xs : List α) (h : ∀ x ∈ xs, Entire (f x)) : Entire (xs.flatMap f) := by
  induction xs with
  | nil => exact .nil
  | cons x xs ih =>
    rw [List.flatMap_cons]
    exact (h x (by simp)).append (ih (fun y hy => h y (by simp [hy])))

theorem entire_soft (parts : List (List Rune)) : Entire ((parts.map Sym.part).intersperse .soft) := by
  induction parts with
  | nil => exact .nil
  | cons p rest ih =>
    cases rest with
    | nil => exact ⟨by simp, by simp⟩
    | cons q rest =>
      have e : ((p :: q :: rest).map Sym.part).intersperse .soft =
          [.part p] ++ .soft :: ((q :: rest).map Sym.part).intersperse .soft := by
        simp [List.intersperse]
      have e2 : ∃ r, ((q :: rest).map Sym.part).intersperse .soft = .part q :: r := by
        cases rest with
        | nil => exact ⟨[], rfl⟩
        | cons r rest => exact ⟨_, by simp [List.intersperse]; rfl⟩
      rw [e]
      refine Entire.append ⟨by simp, by simp⟩ ⟨?_, ?_⟩
      · obtain ⟨r, e2⟩ := e2
        have h1 := ih.1
        rw [e2] at h1 ⊢
        exact List.isChain_cons_cons.mpr ⟨fun _ => ⟨q, rfl⟩, h1⟩
      · obtain ⟨r, e2⟩ := e2
        have h1 := ih.2
        rw [List.getLast?_cons_of_ne_nil (by rw [e2]; simp)]
        exact h1

theorem entire_token (sp : Splitter) (t : List Rune) : Entire (tokenSyms sp t) := by
  refine .flatMap _ _ (fun p _ => ?_)
  unfold chunkSyms
  split
  · exact ⟨by simp [SoftPart], by simp⟩
  · split
    · exact ⟨by simp, by simp⟩
    · refine .flatMap _ _ (fun w _ => ?_)
      unfold wordSyms
      split
      · exact ⟨by simp [SoftPart], by simp⟩
      · exact entire_soft _

theorem entire_styled (sp : Splitter) (tks : List (List Span)) : Entire (styledSyms sp tks) := by
  have h : ∀ t, Entire (spansSyms sp t) := fun t => .flatMap _ _ (fun x _ => entire_token sp x.text)
  induction tks with
  | nil => exact .nil
  | cons t tks ih =>
    cases tks with
    | nil => exact h t
    | cons u tks =>
      have : Entire ([Sym.gap] ++ styledSyms sp (u :: tks)) := Entire.append ⟨by simp, by simp⟩ ih
      exact (h t).append this

/-- How much lines may be stretched, before a node: not, or by the stretch of one space. -/
def lifted : Bool → Int
  | false => 0
  | true => 6

/-- `Lift b T c`: nodes that follow each other take the stretch from `b` to `c`. Marks and hyphens have no width, and come with
stretch. -/
def Lift : Bool → List (Node F × Option Sym) → Bool → Prop
  | b, [], c => b = c
  | b, (x, tag) :: V, c =>
    (tag = some .mark ∨ tag = some .hard → b = true ∧ x.kind = .penalty ∧ x.sums.width = zero) ∧
      ∃ b', ((x.kind = .glue ∧ x.sums.stretch = Arith.ofInt (lifted b' - lifted b)) ∨ (x.kind ≠ .glue ∧ b' = b)) ∧ Lift b' V c

theorem Lift.append {b c d : Bool} {T T' : List (Node F × Option Sym)} (h : Lift b T c) (h' : Lift c T' d) :
    Lift b (T ++ T') d := by
  induction T generalizing b with
  | nil => cases h; exact h'
  | cons x V ih =>
    obtain ⟨x, tag⟩ := x
    obtain ⟨h1, b', h2, h3⟩ := h
    exact ⟨h1, b', h2, ih h3⟩

theorem Lift.split {b d : Bool} {T T' : List (Node F × Option Sym)} (h : Lift b (T ++ T') d) :
    ∃ c, Lift b T c ∧ Lift c T' d := by
  induction T generalizing b with
  | nil => exact ⟨b, rfl, h⟩
  | cons x V ih =>
    obtain ⟨x, tag⟩ := x
    obtain ⟨h1, b', h2, h3⟩ := h
    obtain ⟨c, h4, h5⟩ := ih h3
    exact ⟨c, ⟨h1, b', h2, h4⟩, h5⟩

/-- The nodes are made of the symbols. -/
def MadeOf (l : LineBreaker F) (ss : List Sym) (nodes : List (Node F)) : Prop :=
  ∃ T : List (Node F × Option Sym), T.map Prod.fst = nodes ∧ symsOf T = ss ∧ (∀ x ∈ T, NodeOf l x) ∧
    T.IsChain NotAfterBox ∧ (∀ x ∈ T.head?, x.2 ≠ some .gap ∧ (x.1.kind = .penalty → Arith.eq x.1.penalty infinity = true)) ∧
    (∀ x ∈ T, x.1.isForcedBreak = true → x.2 = some .soft ∧ x.1.penalty = l.hyphenPenalty) ∧ Ends true T ∧ Lift false T false

theorem MadeOf.nil (l : LineBreaker F) : MadeOf l [] [] := ⟨[], rfl, rfl, by simp, by simp, by simp, by simp, True.intro, rfl⟩

theorem MadeOf.append {l : LineBreaker F} {ss ss' : List Sym} {ns ns' : List (Node F)} (h : MadeOf l ss ns)
    (h' : MadeOf l ss' ns') : MadeOf l (ss ++ ss') (ns ++ ns') := by
  obtain ⟨T, h1, h2, h3, h4, h5, h6, h7, h8⟩ := h
  obtain ⟨T', g1, g2, g3, g4, g5, g6, g7, g8⟩ := h'
  refine ⟨T ++ T', by simp [h1, g1], by simp [symsOf] at *; simp [h2, g2], ?_, ?_, ?_, ?_, h7.append g7, h8.append g8⟩
  · intro x hx
    rcases List.mem_append.mp hx with h | h
    · exact h3 x h
    · exact g3 x h
  · exact h4.append g4 (fun x _ y hy hg => absurd hg (g5 y hy).1)
  · intro x hx
    cases T with
    | nil => exact g5 x hx
    | cons y T => exact h5 x hx
  · intro x hx
    rcases List.mem_append.mp hx with h | h
    · exact h6 x h
    · exact g6 x h

variable [Laws F]

theorem inf_inf : Arith.eq (infinity : F) infinity = true := by
  have := eq_small (F := F) 10000 10000 (by decide) (by decide)
  simpa [infinity] using this

theorem inf_free {w : F} {b : Bool} : (newPenalty w infinity b : Node F).isForcedBreak = false := by
  simp [Node.isForcedBreak, newPenalty, infinity, minusInfinity, eq_small (F := F) 10000 (-10000) (by decide) (by decide)]

theorem zero_free {w : F} {b : Bool} : (newPenalty w zero b : Node F).isForcedBreak = false := by
  simp [Node.isForcedBreak, newPenalty, zero, minusInfinity, eq_small (F := F) 0 (-10000) (by decide) (by decide)]

theorem box_kind (l : LineBreaker F) (s : TokState) (text : List Rune) : (strip (s.box l text)).kind = .box := rfl

theorem box_free (l : LineBreaker F) (s : TokState) (text : List Rune) : (strip (s.box l text)).isForcedBreak = false := by
  simp [Node.isForcedBreak, box_kind]

theorem glue_free {w a b : F} : (newGlue w a b : Node F).isForcedBreak = false := by
  simp [Node.isForcedBreak, newGlue]

section
variable {env : Env} {l : LineBreaker F} {sp : Splitter} (hd : Describes env l sp)
include hd

theorem lift_up {w : F} {tag : Option Sym} {V : List (Node F × Option Sym)} {c : Bool} (ht : tag = none ∨ tag = some .gap)
    (h : Lift true V c) : Lift false ((newGlue w l.glueStretch zero, tag) :: V) c :=
  ⟨by rcases ht with rfl | rfl <;> simp, true, Or.inl ⟨rfl, hd.stretch⟩, h⟩

theorem lift_down {w : F} {tag : Option Sym} {V : List (Node F × Option Sym)} {c : Bool} (ht : tag = none ∨ tag = some .gap)
    (h : Lift false V c) : Lift true ((newGlue w (Arith.neg l.glueStretch) zero, tag) :: V) c :=
  ⟨by rcases ht with rfl | rfl <;> simp, false, Or.inl ⟨rfl, by
    show Arith.neg l.glueStretch = _
    rw [hd.stretch, Laws.neg_int 6 (small 6 (by decide)) (by decide)]; rfl⟩, h⟩

omit hd in
theorem lift_still {b : Bool} {x : Node F} {tag : Option Sym} {V : List (Node F × Option Sym)} {c : Bool} (hx : x.kind ≠ .glue)
    (h1 : tag = some .mark ∨ tag = some .hard → b = true ∧ x.kind = .penalty ∧ x.sums.width = zero)
    (h : Lift b V c) : Lift b ((x, tag) :: V) c :=
  ⟨h1, b, Or.inr ⟨hx, rfl⟩, h⟩

theorem made_box (s : TokState) (text : List Rune) : MadeOf l [.part text] ([s.box l text].map strip) :=
  ⟨[(strip (s.box l text), some (.part text))], rfl, rfl, by
    intro x hx
    simp at hx
    subst hx
    exact ⟨rfl, rfl⟩, by simp, by
    intro x hx
    simp at hx
    subst hx
    exact ⟨by simp, fun h => by cases h⟩, by simp [box_free], by simp [Ends], lift_still (by simp [box_kind]) (by simp) rfl⟩

theorem made_hyphen (s : TokState) (text : List Rune) :
    MadeOf l [.part text, .soft] ((s.box l text :: pushHyphen l).map strip) := by
  unfold pushHyphen
  split
  · refine ⟨[(strip (s.box l text), some (.part text)), (newPenalty zero infinity false, none),
      (newGlue zero l.glueStretch zero, none), (newPenalty l.hyphenWidth l.hyphenPenalty true, some .soft),
      (newGlue zero (Arith.neg l.glueStretch) zero, none)], rfl, rfl, ?_, ?_, ?_, by simp [box_free, inf_free, glue_free]; intro _; rfl,
      by simp [Ends, inf_inf, newGlue, newPenalty],
      lift_still (by simp [box_kind]) (by simp) (lift_still (by simp [newPenalty]) (by simp) (lift_up hd (Or.inl rfl)
        (lift_still (by simp [newPenalty]) (by simp) (lift_down hd (Or.inl rfl) rfl))))⟩
    · intro x hx
      simp only [List.mem_cons, List.not_mem_nil, or_false] at hx
      rcases hx with rfl | rfl | rfl | rfl | rfl
      · exact ⟨rfl, rfl⟩
      · exact ⟨by simp, by simp, Or.inl inf_inf⟩
      · exact Or.inr ⟨rfl, _, Or.inl rfl, rfl⟩
      · exact ⟨by simp, by simp, Or.inr rfl⟩
      · exact Or.inr ⟨rfl, _, Or.inr (Or.inl rfl), rfl⟩
    · simp [NotAfterBox]
    · intro x hx
      simp at hx
      subst hx
      exact ⟨by simp, fun h => by cases h⟩
  · refine ⟨[(strip (s.box l text), some (.part text)), (newPenalty zero l.hyphenPenalty true, some .soft)],
      rfl, rfl, ?_, ?_, ?_, by simp [box_free]; intro _; rfl, by simp [Ends],
      lift_still (by simp [box_kind]) (by simp) (lift_still (by simp [newPenalty]) (by simp) rfl)⟩
    · intro x hx
      simp only [List.mem_cons, List.not_mem_nil, or_false] at hx
      rcases hx with rfl | rfl
      · exact ⟨rfl, rfl⟩
      · exact ⟨by simp, by simp, Or.inr rfl⟩
    · simp [NotAfterBox]
    · intro x hx
      simp at hx
      subst hx
      exact ⟨by simp, fun h => by cases h⟩

theorem made_mark (pen : F) (s : Sym) (hs : ∀ t, s ≠ .part t) (hg : s ≠ .gap) (hp : placePenalty l.toOptions (some s) pen)
    (hk : ∃ k : Int, |k| ≤ 1000000 ∧ k ≠ -10000 ∧ pen = Arith.ofInt k) (st : TokState) (text : List Rune) : MadeOf l [.part text, s] ((markNodes l pen text st).1.map strip) := by
  refine ⟨[(newPenalty zero infinity false, none), (newGlue zero l.glueStretch zero, none),
    (strip ((st.push text).box l text), some (.part text)), (newPenalty zero pen true, some s),
    (newGlue zero (Arith.neg l.glueStretch) zero, none)], rfl, rfl, ?_, ?_, ?_, ?_, ?_,
    lift_still (by simp [newPenalty]) (by simp) (lift_up hd (Or.inl rfl) (lift_still (by simp [box_kind]) (by simp)
      (lift_still (by simp [newPenalty]) (fun _ => ⟨rfl, rfl, rfl⟩) (lift_down hd (Or.inl rfl) rfl))))⟩
  · intro x hx
    simp only [List.mem_cons, List.not_mem_nil, or_false] at hx
    rcases hx with rfl | rfl | rfl | rfl | rfl
    · exact ⟨by simp, by simp, Or.inl inf_inf⟩
    · exact Or.inr ⟨rfl, _, Or.inl rfl, rfl⟩
    · exact ⟨rfl, rfl⟩
    · exact ⟨fun t h => hs t (Option.some.inj h), fun h => hg (Option.some.inj h), Or.inr hp⟩
    · exact Or.inr ⟨rfl, _, Or.inr (Or.inl rfl), rfl⟩
  · simp [NotAfterBox, hg]
  · intro x hx
    simp at hx
    subst hx
    exact ⟨by simp, fun _ => inf_inf⟩
  · obtain ⟨k, h1, h2, rfl⟩ := hk
    have : (newPenalty zero (Arith.ofInt k) true : Node F).isForcedBreak = false := by
      simp [Node.isForcedBreak, newPenalty, minusInfinity, eq_small (F := F) k (-10000) h1 (by decide), h2]
    simp [box_free, inf_free, glue_free, this]
  · simp [Ends, inf_inf, newGlue, newPenalty, box_kind]

theorem made_gap : MadeOf l [.gap] ((gapNodes l).map strip) := by
  refine ⟨[(newGlue zero l.glueStretch zero, none), (newPenalty zero zero false, none),
    (newGlue l.spaceWidth (Arith.neg l.glueStretch) zero, some .gap)], rfl, rfl, ?_, ?_, ?_,
    by simp [zero_free, glue_free], by simp [Ends, symsOf, newGlue, newPenalty],
    lift_up hd (Or.inl rfl) (lift_still (by simp [newPenalty]) (by simp) (lift_down hd (Or.inr rfl) rfl))⟩
  · intro x hx
    simp only [List.mem_cons, List.not_mem_nil, or_false] at hx
    rcases hx with rfl | rfl | rfl
    · exact Or.inr ⟨rfl, _, Or.inl rfl, rfl⟩
    · exact ⟨by simp, by simp, Or.inr (Or.inl rfl)⟩
    · exact Or.inl ⟨rfl, rfl⟩
  · simp [NotAfterBox, newPenalty]
  · intro x hx
    simp at hx
    subst hx
    exact ⟨by simp, fun h => by cases h⟩

theorem made_soft (parts : List (List Rune)) (s : TokState) :
    MadeOf l (parts.flatMap (fun p => [.part p, .soft])) ((softLoop l parts s).1.map strip) := by
  induction parts generalizing s with
  | nil => exact .nil l
  | cons p rest ih =>
    have h := (made_hyphen hd (s.push p) p).append (ih (s.push p))
    simpa [softLoop] using h

theorem intersperse_soft (parts : List (List Rune)) (last : List Rune) :
    ((parts ++ [last]).map Sym.part).intersperse .soft = parts.flatMap (fun p => [.part p, .soft]) ++ [.part last] := by
  clear hd
  induction parts with
  | nil => rfl
  | cons p rest ih =>
    cases rest with
    | nil => rfl
    | cons q rest =>
      simp only [List.cons_append, List.map_cons, List.intersperse, List.flatMap_cons, List.nil_append] at ih ⊢
      rw [ih]

theorem made_word {word : List Rune} {s : TokState} {p : List (Node F) × TokState} (hw : l.wordBreak = true)
    (h : wordNodes l word s = .ok p) :
    MadeOf l (wordSyms sp word) (p.1.map strip) ∧ (Lossless l → partsText (wordSyms sp word) = word) := by
  unfold wordNodes at h
  unfold wordSyms
  rw [← hd.isHyphen]
  split at h
  · rename_i hh
    cases h
    rw [if_pos hh]
    exact ⟨made_mark hd _ .hard (by simp) (by simp) hd.hard ⟨200, by decide, by decide, hd.hard⟩ s word, fun _ => by simp [partsText]⟩
  · rename_i hh
    rw [if_neg hh]
    cases h1 : callSplit l.hyphenator word with
    | error e => rw [h1] at h; cases h
    | ok hy =>
      simp only [h1, ok_bind] at h
      rw [hd.syllables hw _ _ h1]
      rcases List.eq_nil_or_concat hy with rfl | ⟨init, last, rfl⟩
      · cases h
      · have e1 : slice (init ++ [last]) 0 (((init ++ [last]).length : Int) - 1) = .ok init := by
          unfold slice; simp
        have e2 : index (init ++ [last]) (((init ++ [last]).length : Int) - 1) = .ok last := by
          unfold index; simp
        rw [List.concat_eq_append] at h h1 ⊢
        simp only [e1, e2, ok_bind, pure_eq_ok] at h
        cases h
        rw [intersperse_soft hd]
        refine ⟨?_, fun hl => ?_⟩
        · have := (made_soft hd init s).append (made_box hd ((softLoop l init s).2.push last) last)
          simpa using this
        · have := hl.2 hw _ _ h1
          rw [← this]
          clear h1 e1 e2 this
          induction init with
          | nil => simp [partsText]
          | cons q init ih => simpa [partsText] using ih

theorem partsText_append (a b : List Sym) : partsText (a ++ b) = partsText a ++ partsText b := by
  clear hd
  induction a with
  | nil => rfl
  | cons s a ih => cases s <;> simp [partsText, ih]

theorem made_words {words : List (List Rune)} {s : TokState} {p : List (Node F) × TokState} (hw : l.wordBreak = true)
    (h : wordsLoop l words s = .ok p) :
    MadeOf l (words.flatMap (wordSyms sp)) (p.1.map strip) ∧
      (Lossless l → partsText (words.flatMap (wordSyms sp)) = words.flatten) := by
  induction words generalizing s p with
  | nil => cases h; exact ⟨.nil l, fun _ => rfl⟩
  | cons w rest ih =>
    simp only [wordsLoop] at h
    cases h1 : wordNodes l w s with
    | error e => rw [h1] at h; cases h
    | ok a =>
      simp only [h1, ok_bind] at h
      cases h2 : wordsLoop l rest a.2 with
      | error e => rw [h2] at h; cases h
      | ok b =>
        simp only [h2, ok_bind, pure_eq_ok] at h
        cases h
        obtain ⟨m1, t1⟩ := made_word hd hw h1
        obtain ⟨m2, t2⟩ := ih h2
        refine ⟨by simpa using m1.append m2, fun hl => ?_⟩
        rw [List.flatMap_cons, partsText_append hd, t1 hl, t2 hl, List.flatten_cons]

theorem made_part {part : List Rune} {s : TokState} {p : List (Node F) × TokState} (h : partNodes env l part s = .ok p) :
    MadeOf l (chunkSyms sp part) (p.1.map strip) ∧ (Lossless l → partsText (chunkSyms sp part) = part) := by
  unfold partNodes at h
  unfold chunkSyms
  rw [← hd.isMark, ← hd.breakWords, ← hd.short]
  split at h
  · rename_i hm
    cases h
    rw [if_pos hm]
    exact ⟨made_mark hd _ .mark (by simp) (by simp) hd.mark ⟨400, by decide, by decide, hd.mark⟩ s part, fun _ => by simp [partsText]⟩
  · rename_i hm
    rw [if_neg hm]
    split at h
    · rename_i hc
      cases h
      rw [if_pos (by simpa using hc)]
      exact ⟨made_box hd _ part, fun _ => by simp [partsText]⟩
    · rename_i hc
      rw [if_neg (by simpa using hc)]
      cases h1 : splitWord part with
      | error e => rw [h1] at h; cases h
      | ok words =>
        simp only [h1, ok_bind] at h
        rw [hd.hyphens _ _ h1]
        have hw : l.wordBreak = true := by
          simp only [Bool.or_eq_true, Bool.not_eq_true', decide_eq_true_eq, not_or, Bool.not_eq_false] at hc
          exact hc.1
        obtain ⟨m1, t1⟩ := made_words hd hw h
        refine ⟨m1, fun hl => ?_⟩
        rw [t1 hl]
        obtain ⟨ps, e, e2, _⟩ := C07_splitWord part
        rw [h1] at e
        cases e
        exact e2

theorem made_parts {parts : List (List Rune)} {s : TokState} {p : List (Node F) × TokState}
    (h : partsLoop env l parts s = .ok p) :
    MadeOf l (parts.flatMap (chunkSyms sp)) (p.1.map strip) ∧
      (Lossless l → partsText (parts.flatMap (chunkSyms sp)) = parts.flatten) := by
  induction parts generalizing s p with
  | nil => cases h; exact ⟨.nil l, fun _ => rfl⟩
  | cons w rest ih =>
    simp only [partsLoop] at h
    cases h1 : partNodes env l w s with
    | error e => rw [h1] at h; cases h
    | ok a =>
      simp only [h1, ok_bind] at h
      cases h2 : partsLoop env l rest a.2 with
      | error e => rw [h2] at h; cases h
      | ok b =>
        simp only [h2, ok_bind, pure_eq_ok] at h
        cases h
        obtain ⟨m1, t1⟩ := made_part hd h1
        obtain ⟨m2, t2⟩ := ih h2
        refine ⟨by simpa using m1.append m2, fun hl => ?_⟩
        rw [List.flatMap_cons, partsText_append hd, t1 hl, t2 hl, List.flatten_cons]

theorem made_stripped {mem : List Rune} {toks : List Ansi.StrippedToken} {a : AState} {p : List (Node F) × AState}
    (h : strippedLoop env l mem toks a = .ok p) :
    MadeOf l (toks.flatMap (fun t => tokenSyms sp (textRunes mem t.text))) (p.1.map strip) ∧
      (Lossless l → partsText (toks.flatMap (fun t => tokenSyms sp (textRunes mem t.text))) =
        toks.flatMap (fun t => textRunes mem t.text)) := by
  induction toks generalizing a p with
  | nil => cases h; exact ⟨.nil l, fun _ => rfl⟩
  | cons t ts ih =>
    simp only [strippedLoop] at h
    cases h1 : callSplit l.punctuator (textRunes mem t.text) with
    | error e => rw [h1] at h; cases h
    | ok parts =>
      simp only [h1, ok_bind] at h
      cases h2 : partsLoop env l parts ⟨false, none, fieldRunes mem t.start, fieldRunes mem t.stop, a⟩ with
      | error e => rw [h2] at h; cases h
      | ok b =>
        simp only [h2, ok_bind] at h
        cases h3 : strippedLoop env l mem ts b.2.close with
        | error e => rw [h3] at h; cases h
        | ok c =>
          simp only [h3, ok_bind, pure_eq_ok] at h
          cases h
          obtain ⟨m1, t1⟩ := made_parts hd h2
          obtain ⟨m2, t2⟩ := ih h3
          have e : tokenSyms sp (textRunes mem t.text) = parts.flatMap (chunkSyms sp) := by
            unfold tokenSyms; rw [hd.marks _ _ h1]
          refine ⟨by simpa [e] using m1.append m2, fun hl => ?_⟩
          rw [List.flatMap_cons, partsText_append hd, e, t1 hl, t2 hl, List.flatMap_cons, hl.1 _ _ h1]

theorem made_token {rt : Runtime} {t : List Rune} {xs : List Span} (hf : Found rt env t xs) {a : AState}
    {p : List (Node F) × AState} (h : boxNodes rt env l t a = .ok p) :
    MadeOf l (spansSyms sp xs) (p.1.map strip) ∧ (Lossless l → partsText (spansSyms sp xs) = xs.flatMap Span.text) := by
  obtain ⟨toks, mem, h1, rfl⟩ := hf
  unfold boxNodes at h
  simp only [h1, ok_bind] at h
  have := made_stripped hd h
  simpa [spansSyms, List.flatMap_map] using this

theorem made_tokens {rt : Runtime} {tokens : List (List Rune)} {tks : List (List Span)}
    (hf : List.Forall₂ (Found rt env) tokens tks) (hne : tokens ≠ []) {a : AState} {p : List (Node F) × AState}
    (h : tokensLoop rt env l tokens a = .ok p) :
    (∃ ns, p.1 = ns ++ endNodes ∧ MadeOf l (styledSyms sp tks) (ns.map strip)) ∧
      (Lossless l → partsText (styledSyms sp tks) = (textsOf tks).flatten) := by
  induction hf generalizing a p with
  | nil => exact absurd rfl hne
  | @cons t xs ts xss h1 hs ih =>
    cases hs with
    | nil =>
      simp only [tokensLoop] at h
      cases h2 : boxNodes rt env l t a with
      | error e => rw [h2] at h; cases h
      | ok b =>
        simp only [h2, ok_bind, pure_eq_ok] at h
        cases h
        obtain ⟨m1, t1⟩ := made_token hd h1 h2
        refine ⟨⟨_, rfl, by simpa [styledSyms] using m1⟩, fun hl => ?_⟩
        simp [styledSyms, t1 hl, textsOf]
    | @cons u ys us yss h3 hs =>
      simp only [tokensLoop] at h
      cases h2 : boxNodes rt env l t a with
      | error e => rw [h2] at h; cases h
      | ok b =>
        simp only [h2, ok_bind] at h
        cases h4 : tokensLoop rt env l (u :: us) b.2 with
        | error e => rw [h4] at h; cases h
        | ok c =>
          simp only [h4, ok_bind, pure_eq_ok] at h
          cases h
          obtain ⟨m1, t1⟩ := made_token hd h1 h2
          obtain ⟨⟨ns, e, m2⟩, t2⟩ := ih (by simp) h4
          refine ⟨⟨b.1 ++ gapNodes l ++ ns, by simp [e], ?_⟩, fun hl => ?_⟩
          · have := (m1.append (made_gap hd)).append m2
            simpa [styledSyms] using this
          · rw [styledSyms, partsText_append hd, t1 hl, partsText, t2 hl]
            all_goals first
              | simp [textsOf]; done
              | (intro h; cases h; done)
              | (intro t h; cases h)

end

/-! ## Lines -/

/-- The text written for the space between two words. -/
def gapText (l : LineBreaker F) : List Rune :=
  match glueText l.toOptions zero (newGlue l.spaceWidth (Arith.neg l.glueStretch) zero) with
  | .ok g => g
  | .error _ => []

theorem repeat_spaces (k : Int) {t : List Rune} (h : repeatRunes space k = .ok t) : ∃ n, t = List.replicate n 0x20 := by
  unfold repeatRunes space at h
  by_cases h0 : k = 0
  · rw [if_pos (Or.inr h0)] at h; cases h; exact ⟨0, rfl⟩
  by_cases h1 : k < 0 ∨ maxRunes < (([0x20] : List Rune).length : Int) * k
  · rw [if_neg (by simp [h0]), if_pos h1] at h; cases h
  · rw [if_neg (by simp [h0]), if_neg h1] at h
    cases h
    refine ⟨k.toNat, ?_⟩
    generalize k.toNat = n
    induction n with
    | zero => rfl
    | succ n ih => simp [List.replicate_succ, ih]

theorem gapText_spaces (l : LineBreaker F) : ∃ n, gapText l = List.replicate n 0x20 := by
  unfold gapText
  cases h : glueText l.toOptions zero (newGlue l.spaceWidth (Arith.neg l.glueStretch) zero) with
  | error e => exact ⟨0, rfl⟩
  | ok g => exact repeat_spaces _ h

section
variable {env : Env} {l : LineBreaker F} {sp : Splitter} (hd : Describes env l sp)
  (hz : Arith.toInt (l.downScale (Arith.ofInt 0 : F)) ≤ 0)
include hd hz

/-- The text of a space of no width. -/
theorem glueText_none {x : Node F} {st : F} (hs : st = l.glueStretch ∨ st = Arith.neg l.glueStretch ∨ st = infinity)
    (hx : x.sums = ⟨zero, st, zero⟩) {t : List Rune} (h : glueText l.toOptions zero x = .ok t) : t = [] := by
  have hst : ∃ k : Int, |k| ≤ 1000000 ∧ st = Arith.ofInt k := by
    rcases hs with h | h | h
    · exact ⟨6, by decide, by rw [h, hd.stretch]⟩
    · exact ⟨-6, by decide, by rw [h, hd.stretch, Laws.neg_int 6 (small 6 (by decide)) (by decide)]⟩
    · exact ⟨10000, by decide, h⟩
  obtain ⟨k, hk, rfl⟩ := hst
  unfold glueText at h
  rw [hx] at h
  have e : Arith.lt (zero : F) zero = false := zero_lt_zero
  simp only [e, Bool.false_eq_true, if_false] at h
  have e2 : Arith.add (zero : F) (Arith.mul zero (Arith.ofInt k)) = Arith.ofInt 0 :=
    Laws.add_zero_mul 0 k (small 0 (by decide)) (small k hk)
  rw [e2] at h
  unfold repeatRunes at h
  split_ifs at h with h1 h2
  · cases h; rfl
  · exfalso
    have : Arith.toInt (l.downScale (Arith.ofInt 0 : F)) ≠ 0 := by
      intro h3; exact h1 (Or.inr h3)
    omega

omit hd hz in
theorem lineText_append (g : List Rune) (a b : List Sym) : lineText g (a ++ b) = lineText g a ++ lineText g b := by
  induction a with
  | nil => rfl
  | cons s a ih => cases s <;> simp [lineText, ih]

/-- The text of nodes but the last. -/
theorem nodesLoop_body (T : List (Node F × Option Sym)) (hT : ∀ x ∈ T, NodeOf l x) (rest : List (Node F)) (hr : rest ≠ [])
    (out : List Rune) (it : AIter) (q : List Rune × AIter)
    (h : nodesLoop l.toOptions [] zero (T.map Prod.fst ++ rest) out it = .ok q) :
    ∃ it', nodesLoop l.toOptions [] zero rest (out ++ lineText (gapText l) (symsOf T)) it' = .ok q := by
  induction T generalizing out it with
  | nil => exact ⟨it, by simpa [symsOf, lineText] using h⟩
  | cons x T ih =>
    have hx := hT x (by simp)
    have ih := ih (fun y hy => hT y (by simp [hy]))
    have e : (T.map Prod.fst ++ rest).isEmpty = false := by
      cases rest with
      | nil => exact absurd rfl hr
      | cons y rest => simp
    obtain ⟨x, tag⟩ := x
    unfold NodeOf at hx
    simp only [List.map_cons, List.cons_append, nodesLoop] at h
    cases hk : x.kind with
    | box =>
      simp only [hk] at h hx
      obtain ⟨rfl, ha⟩ := hx
      have er : renderBox [] x out = out ++ x.value := by unfold renderBox; rw [ha]; rfl
      rw [er] at h
      obtain ⟨it', h'⟩ := ih _ _ h
      exact ⟨it', by simpa [symsOf, lineText] using h'⟩
    | glue =>
      simp only [hk] at h hx
      cases hg : glueText l.toOptions zero x with
      | error e => rw [hg] at h; cases h
      | ok t =>
        simp only [hg, ok_bind] at h
        obtain ⟨it', h'⟩ := ih _ _ h
        rcases hx with ⟨rfl, hs⟩ | ⟨rfl, st, hs, hs2⟩
        · have et : t = gapText l := by
            have : glueText l.toOptions zero x =
                glueText l.toOptions zero (newGlue l.spaceWidth (Arith.neg l.glueStretch) zero) := by
              unfold glueText; rw [hs]; rfl
            unfold gapText
            rw [← this, hg]
          subst et
          exact ⟨it', by simpa [symsOf, lineText, emit] using h'⟩
        · have := glueText_none hd hz hs hs2 hg
          subst this
          exact ⟨it', by simpa [symsOf, lineText, emit] using h'⟩
    | penalty =>
      simp only [hk, e, Bool.and_false, Bool.false_eq_true, if_false] at h hx
      obtain ⟨it', h'⟩ := ih _ _ h
      refine ⟨it', ?_⟩
      cases tag with
      | none => simpa [symsOf] using h'
      | some s =>
        cases s with
        | part t => exact absurd rfl (hx.1 t)
        | gap => exact absurd rfl hx.2.1
        | soft => simpa [symsOf, lineText] using h'
        | hard => simpa [symsOf, lineText] using h'
        | mark => simpa [symsOf, lineText] using h'

/-- The text of the last node, where a line may end. -/
theorem nodesLoop_last (x : Node F × Option Sym) (hx : NodeOf l x) (hb : x.1.kind ≠ .box) (hg : x.2 ≠ some .gap)
    (hp : x.1.kind = .penalty → Arith.eq x.1.penalty infinity = false) (out : List Rune) (it : AIter)
    (q : List Rune × AIter) (h : nodesLoop l.toOptions [] zero [x.1] out it = .ok q) :
    ∃ t, (mayEnd l.toOptions x.2 t ∧ mustEnd l.toOptions x.2 t) ∧ q.1 = out ++ t := by
  obtain ⟨x, tag⟩ := x
  unfold NodeOf at hx
  simp only [nodesLoop] at h
  cases hk : x.kind with
  | box => exact absurd hk hb
  | glue =>
    simp only [hk] at h hx
    cases hgt : glueText l.toOptions zero x with
    | error e => rw [hgt] at h; cases h
    | ok t =>
      simp only [hgt, ok_bind] at h
      cases h
      rcases hx with ⟨rfl, _⟩ | ⟨rfl, st, hs, hs2⟩
      · exact absurd rfl hg
      · have := glueText_none hd hz hs hs2 hgt
        subst this
        exact ⟨[], ⟨Or.inl rfl, fun h => by cases h⟩, rfl⟩
  | penalty =>
    simp only [hk, List.isEmpty_nil, Bool.and_true] at h hx
    have hpi := hp hk
    dsimp only at hpi hx
    split at h
    · rename_i hc
      simp only [Bool.and_eq_true] at hc
      cases h
      refine ⟨hyphen, ⟨Or.inr ⟨rfl, hc.1, x.penalty, ?_, hc.2⟩, fun _ _ _ => rfl⟩, rfl⟩
      rcases hx.2.2 with h | h
      · rw [hpi] at h; cases h
      · exact h
    · rename_i hc
      cases h
      refine ⟨[], ⟨Or.inl rfl, fun h1 h2 h3 => ?_⟩, by simp⟩
      exfalso
      subst h1
      rcases hx.2.2 with h | h
      · rw [hpi] at h; cases h
      · rw [show x.penalty = l.hyphenPenalty from h] at hc
        exact hc (by rw [h2, h3]; rfl)

end

/-- How many nodes are skipped. -/
theorem skipNodes_nonbox {nodes : List (Node F)} {i j : Nat} (h : skipNodes i nodes = .ok j) :
    i ≤ j ∧ (∀ x ∈ (nodes.drop i).take (j - i), x.kind ≠ .box) ∧
      ((∃ x, nodes[j]? = some x ∧ (x.kind = .box ∨ x.isForcedBreak = true)) ∨ ∀ x ∈ nodes.drop i, x.isForcedBreak = false) := by
  unfold skipNodes at h
  cases hs : slice nodes i nodes.length with
  | error e => rw [hs] at h; cases h
  | ok tail =>
    have et : tail = nodes.drop i := by
      unfold slice at hs
      split at hs
      · cases hs
        simp
        try rfl
      · cases hs
    subst et
    simp only [hs, ok_bind] at h
    have key : ∀ (ns : List (Node F)) (k m : Nat), skipLoop ns k = some m →
        k ≤ m ∧ (∀ x ∈ ns.take (m - k), x.kind ≠ .box) ∧
          ∃ x, ns[m - k]? = some x ∧ (x.kind = .box ∨ x.isForcedBreak = true) := by
      intro ns
      induction ns with
      | nil => intro k m h; cases h
      | cons x ns ih =>
        intro k m h
        unfold skipLoop at h
        split at h
        · rename_i hc
          cases h
          simpa using hc
        · rename_i hc
          obtain ⟨h1, h2, h3⟩ := ih _ _ h
          have e : m - k = (m - (k + 1)) + 1 := by omega
          refine ⟨by omega, ?_, by rw [e]; simpa using h3⟩
          rw [e, List.take_succ_cons]
          intro y hy
          rcases List.mem_cons.mp hy with rfl | hy
          · intro hk
            simp [hk] at hc
          · exact h2 y hy
    cases hl : skipLoop (nodes.drop i) 0 with
    | none =>
      have free : ∀ (ns : List (Node F)) (k : Nat), skipLoop ns k = none → ∀ x ∈ ns, x.isForcedBreak = false := by
        intro ns
        induction ns with
        | nil => intro _ _ x hx; cases hx
        | cons y ns ih =>
          intro k h x hx
          unfold skipLoop at h
          split at h
          · cases h
          · rename_i hc
            simp only [Bool.or_eq_true, not_or, Bool.not_eq_true] at hc
            rcases List.mem_cons.mp hx with rfl | hx
            · exact hc.2
            · exact ih _ h x hx
      rw [hl] at h; cases h
      exact ⟨le_refl _, by simp, Or.inr (free _ _ hl)⟩
    | some k =>
      rw [hl] at h
      cases h
      obtain ⟨h1, h2, h3⟩ := key _ _ _ hl
      refine ⟨by omega, by simpa using h2, Or.inl ?_⟩
      simpa using h3

theorem nonbox_syms {l : LineBreaker F} {T : List (Node F × Option Sym)} (hT : ∀ x ∈ T, NodeOf l x)
    (h : ∀ x ∈ T, x.1.kind ≠ .box) (t : List Rune) : .part t ∉ symsOf T := by
  intro hm
  obtain ⟨x, hx, e⟩ := List.mem_filterMap.mp hm
  have h1 := hT x hx
  have h2 := h x hx
  unfold NodeOf at h1
  cases hk : x.1.kind with
  | box => exact h2 hk
  | glue =>
    simp only [hk, e] at h1
    rcases h1 with ⟨h, _⟩ | ⟨h, _⟩ <;> cases h
  | penalty =>
    simp only [hk] at h1
    exact h1.1 t e

/-- A node where skipNodes stops. -/
def Solid (x : Node F) : Prop := x.kind = .box ∨ x.isForcedBreak = true

/-- A line from `p` to `q` has nodes. -/
def Gd (N : List (Node F)) (p q : Nat) : Prop :=
  q < N.length ∧ ∃ k x, p ≤ k ∧ k ≤ q ∧ N[k]? = some x ∧ Solid x

theorem Gd.strip {N : List (Node F)} {p q : Nat} (h : Gd N p q) : Gd (N.map strip) p q := by
  obtain ⟨h1, k, x, h2, h3, h4, h5⟩ := h
  refine ⟨by simpa using h1, k, Proofs.LB.strip x, h2, h3, by rw [List.getElem?_map, h4]; rfl, ?_⟩
  rcases h5 with h | h
  · exact Or.inl h
  · exact Or.inr h

theorem symsOf_append (a b : List (Node F × Option Sym)) : symsOf (a ++ b) = symsOf a ++ symsOf b := by
  simp [symsOf]

theorem symsOf_cons (x : Node F × Option Sym) (b : List (Node F × Option Sym)) : symsOf (x :: b) = x.2.toList ++ symsOf b := by
  obtain ⟨x, s⟩ := x
  cases s <;> simp [symsOf]

section
variable {env : Env} {l : LineBreaker F} {sp : Splitter} (hd : Describes env l sp)
  (hz : Arith.toInt (l.downScale (Arith.ofInt 0 : F)) ≤ 0)
  {T : List (Node F × Option Sym)} (hT : ∀ x ∈ T, NodeOf l x) (hc : T.IsChain NotAfterBox)
  (hfree : ∀ U x V, T = U ++ x :: V → V ≠ [] → x.1.isForcedBreak = true → x.2 = some .soft)
  (hforced : ∃ x, T.getLast? = some x ∧ x.1.isForcedBreak = true) (hwhole : Entire (symsOf T))
include hd hz hT hc hfree hforced hwhole

/-- A node where a line may end. -/
theorem legal_node {u v : List (Node F)} {x : Node F} (h : T.map Prod.fst = u ++ x :: v) (hl : LegalAt u.getLast? x) :
    ∃ U tag V, T = U ++ (x, tag) :: V ∧ U.length = u.length ∧ x.kind ≠ .box ∧ tag ≠ some .gap ∧
      (x.kind = .penalty → Arith.eq x.penalty infinity = false) := by
  obtain ⟨U, R, e, hu, hr⟩ := List.map_eq_append_iff.mp h
  obtain ⟨⟨x', tag⟩, V, rfl, hx, hv⟩ := List.map_eq_cons_iff.mp hr
  dsimp only at hx
  subst hx
  refine ⟨U, tag, V, e, by rw [← hu]; simp, ?_, ?_, ?_⟩
  · intro hk
    rcases hl with ⟨h, _⟩ | ⟨h, _⟩ <;> rw [hk] at h <;> cases h
  · rintro rfl
    have hn := hT (x', some .gap) (by rw [e]; simp)
    unfold NodeOf at hn
    rcases hl with ⟨h, hb⟩ | ⟨h, _⟩
    · rw [← hu, List.getLast?_map, Option.map_map] at hb
      cases hL : U.getLast? with
      | none => rw [hL] at hb; cases hb
      | some y =>
        rw [hL] at hb
        simp only [Option.map_some, Function.comp_apply, Option.some.injEq] at hb
        rw [e] at hc
        have := (List.isChain_append.mp hc).2.2 y hL (x', some .gap) (by simp)
        exact this rfl hb
    · simp only [h] at hn
      exact hn.2.1 rfl
  · intro hk
    rcases hl with ⟨h, _⟩ | ⟨_, h⟩
    · rw [hk] at h; cases h
    · exact h

/-- One line. -/
theorem line_fill {U V : List (Node F × Option Sym)} {x : Node F} {tag : Option Sym} (e : T = U ++ (x, tag) :: V)
    (hb : x.kind ≠ .box) (hg : tag ≠ some .gap) (hp : x.kind = .penalty → Arith.eq x.penalty infinity = false)
    {i j : Nat} (hi : i < U.length) (hs : skipNodes i (T.map Prod.fst) = .ok j) {ns : List (Node F)}
    (hn : slice (T.map Prod.fst) j ((U.length : Int) + 1) = .ok ns) {it : AIter} {q : List Rune × AIter}
    (hq : nodesLoop l.toOptions [] zero ns [] it = .ok q) :
    ∃ D L h, symsOf (T.drop i) = D ++ L ++ (tag.toList ++ symsOf V) ∧ (∀ t, .part t ∉ D) ∧ StartsSet L ∧
      (mayEnd l.toOptions tag h ∧ (L = [] ∨ mustEnd l.toOptions tag h)) ∧ q.1 = lineText (gapText l) L ++ h := by
  obtain ⟨hij, hskip, hstop⟩ := skipNodes_nonbox hs
  have hjk : j ≤ U.length + 1 ∧ ns = ((T.map Prod.fst).take (U.length + 1)).drop j := by
    unfold slice at hn
    split at hn
    · rename_i hc
      cases hn
      refine ⟨by omega, ?_⟩
      simp [List.drop_take]
    · cases hn
  obtain ⟨hjk, hns⟩ := hjk
  have hUT : ∀ y ∈ U, NodeOf l y := fun y hy => hT y (by rw [e]; simp [hy])
  have eT : T.drop i = U.drop i ++ (x, tag) :: V := by rw [e, List.drop_append_of_le_length (by omega)]
  have eK : (T.map Prod.fst).take (U.length + 1) = U.map Prod.fst ++ [x] := by
    rw [e]; simp [List.take_append]
  rw [eK] at hns
  have nonbox : ∀ m, m ≤ j → m ≤ U.length → ∀ y ∈ (U.drop i).take (m - i), y.1.kind ≠ .box := by
    intro m hm hm2 y hy
    refine hskip y.1 ?_
    rw [← List.map_drop, ← List.map_take]
    refine List.mem_map_of_mem ?_
    rw [eT]
    have h1 : (U.drop i).take (m - i) <+: (U.drop i ++ (x, tag) :: V).take (j - i) := by
      rw [List.take_append]
      refine List.IsPrefix.trans ?_ (List.prefix_append _ _)
      exact List.take_prefix_take_left (by omega)
    exact h1.subset hy
  by_cases hlast : j ≤ U.length
  · have ens : ns = (U.drop j).map Prod.fst ++ [x] := by
      rw [hns, List.drop_append_of_le_length (by simpa using hlast), List.map_drop]
    rw [ens] at hq
    obtain ⟨it', hq'⟩ := nodesLoop_body hd hz (U.drop j) (fun y hy => hUT y (List.mem_of_mem_drop hy)) [x] (by simp) [] it q hq
    obtain ⟨h, h1, h2⟩ := nodesLoop_last hd hz (x, tag) (hT _ (by rw [e]; simp)) hb hg hp _ _ _ hq'
    refine ⟨symsOf ((U.drop i).take (j - i)), symsOf (U.drop j), h, ?_, ?_, ?_, ⟨h1.1, Or.inr h1.2⟩, by simpa using h2⟩
    · rw [eT, symsOf_append, symsOf_cons, ← symsOf_append]
      have : (U.drop i).take (j - i) ++ U.drop j = U.drop i := by
        have h := List.take_append_drop (j - i) (U.drop i)
        rw [List.drop_drop, show i + (j - i) = j by omega] at h
        exact h
      rw [this]
    · exact nonbox_syms (fun y hy => hUT y (List.mem_of_mem_drop (List.mem_of_mem_take hy))) (nonbox j (le_refl _) hlast)
    · cases hR : U.drop j with
      | nil => exact True.intro
      | cons y R =>
        have eU : U = U.take j ++ y :: R := by rw [← hR, List.take_append_drop]
        have eT2 : T = U.take j ++ y :: (R ++ (x, tag) :: V) := by
          rw [e]; conv => lhs; rw [eU]
          simp
        have hjT : (T.map Prod.fst)[j]? = some y.1 := by
          have hlen : ((U.take j).map Prod.fst).length = j := by simp; omega
          rw [eT2, List.map_append, List.getElem?_append_right (by omega), hlen]
          simp
        have hy : y.1.kind = .box ∨ y.1.isForcedBreak = true := by
          rcases hstop with ⟨z, hz1, hz2⟩ | hno
          · rw [hjT] at hz1; cases hz1; exact hz2
          · exfalso
            obtain ⟨z, hz1, hz2⟩ := hforced
            have hm : z.1 ∈ (T.map Prod.fst).drop i := by
              rw [← List.map_drop]
              refine List.mem_map_of_mem ?_
              rw [eT]
              rw [e, List.getLast?_append_of_ne_nil _ (by simp)] at hz1
              exact List.mem_append_right _ (List.mem_of_mem_getLast? hz1)
            rw [hno _ hm] at hz2
            cases hz2
        rcases hy with hb' | hf'
        · have hn := hT y (by rw [eT2]; simp)
          unfold NodeOf at hn
          simp only [hb'] at hn
          rw [symsOf_cons, hn.1]
          exact True.intro
        · have hsoft := hfree _ _ _ eT2 (by simp) hf'
          have hch := hwhole.1
          rw [eT2, symsOf_append, symsOf_cons, symsOf_append] at hch
          rw [symsOf_cons, hsoft]
          rw [hsoft] at hch
          have h2 := (List.isChain_append.mp hch).2.1
          simp only [Option.toList_some, List.cons_append, List.nil_append] at h2 ⊢
          cases hsR : symsOf R with
          | nil => exact True.intro
          | cons a b =>
            rw [hsR, List.cons_append] at h2
            obtain ⟨t, rfl⟩ := (List.isChain_cons_cons.mp h2).1 rfl
            exact True.intro
  · have ej : j = U.length + 1 := by omega
    have ens : ns = [] := by rw [hns]; simp [ej]
    rw [ens] at hq
    cases hq
    refine ⟨symsOf (U.drop i), [], [], ?_, ?_, True.intro, ⟨Or.inl rfl, Or.inl rfl⟩, rfl⟩
    · rw [eT, symsOf_append, symsOf_cons]; simp
    · have h := nonbox U.length (by omega) (le_refl _)
      rw [List.take_of_length_le (by simp)] at h
      exact nonbox_syms (fun y hy => hUT y (List.mem_of_mem_drop hy)) h

theorem line_part {U V : List (Node F × Option Sym)} {x : Node F} {tag : Option Sym} (e : T = U ++ (x, tag) :: V) (hb : x.kind ≠ .box)
    (hun : ∀ U x V, T = U ++ x :: V → V ≠ [] → x.1.isForcedBreak = false) (hV : V ≠ []) {p : Nat} (hp : p < U.length)
    (hg : Gd (T.map Prod.fst) p U.length) {D L : List Sym} (h1 : symsOf (T.drop p) = D ++ L ++ (tag.toList ++ symsOf V))
    (h2 : ∀ t, .part t ∉ D) : ∃ t, .part t ∈ L := by
  obtain ⟨_, k, y, k1, k2, k3, k4⟩ := hg
  rw [List.getElem?_map] at k3
  have hk : k < T.length := by
    have := congrArg List.length e
    simp only [List.length_append, List.length_cons] at this
    omega
  rw [List.getElem?_eq_getElem hk] at k3
  simp only [Option.map_some, Option.some.injEq] at k3
  have hbox : y.kind = .box := by
    rcases k4 with h | h
    · exact h
    · have e2 : T = T.take k ++ T[k] :: T.drop (k + 1) := by
        rw [List.cons_getElem_drop_succ, List.take_append_drop]
      have := hun _ _ _ e2 (by
        intro h0
        have h0 := List.drop_eq_nil_iff.mp h0
        have := congrArg List.length e
        have hl := List.length_pos_of_ne_nil hV
        simp only [List.length_append, List.length_cons] at this
        omega)
      rw [k3, h] at this
      cases this
  have hlt : k < U.length := by
    rcases Nat.lt_or_ge k U.length with h | h
    · exact h
    · have : k = U.length := by omega
      subst this
      have e2 : T[U.length] = (x, tag) := by simp [e]
      rw [e2] at k3
      exact absurd ((show x = y from k3) ▸ hbox) hb
  have hn := hT T[k] (List.getElem_mem hk)
  unfold NodeOf at hn
  rw [k3, hbox] at hn
  have hm : Sym.part y.value ∈ symsOf (U.drop p) := by
    refine List.mem_filterMap.mpr ⟨T[k], ?_, hn.1⟩
    rw [List.mem_drop_iff_getElem]
    refine ⟨k - p, by omega, ?_⟩
    simp [e, show p + (k - p) = k by omega, List.getElem_append_left hlt]
  have e3 : T.drop p = U.drop p ++ (x, tag) :: V := by rw [e, List.drop_append_of_le_length (by omega)]
  rw [e3, symsOf_append, symsOf_cons] at h1
  have h1 := List.append_cancel_right h1
  rw [h1] at hm
  exact ⟨_, (List.mem_append.mp hm).resolve_left (h2 _)⟩

/-- All lines. -/
theorem lines_fill {full : Bool} {ideal : F} (hend : ∀ x ∈ T.getLast?, x.2 = none)
    (hends : ∀ U x V, T = U ++ (x, none) :: V → LegalAt (U.map Prod.fst).getLast? x →
      symsOf V = [] ∨ ∃ r, symsOf V = .gap :: r) {p : Point F} {pts : List (Point F)}
    (hpath : Path (Step l.toOptions (T.map Prod.fst) ideal) p pts) (hne : pts ≠ [])
    (hpos : ∀ q ∈ pts.getLast?, q.position + 1 = T.length) (hzero : ∀ q ∈ pts, q.ratio = zero)
    {ls : List (F × List (Node F))} (h : linesLoop (T.map Prod.fst) pts p.position = .ok ls) {it : AIter}
    {out : List (List Rune)} (ho : renderLoop l.toOptions [] ls it = .ok out)
    (hun : full = true → ∀ U x V, T = U ++ x :: V → V ≠ [] → x.1.isForcedBreak = false)
    (hgood : full = true → (p :: pts).IsChain (fun p q => Gd (T.map Prod.fst) p.position q.position)) :
    Fills full (gapText l) (fun s h => mayEnd l.toOptions s h ∧ (full = true → mustEnd l.toOptions s h)) (symsOf (T.drop p.position)) out := by
  have h0 : AllPlain ([] : AState) := fun a h => by cases h
  induction hpath generalizing ls it out with
  | nil => exact absurd rfl hne
  | @cons p q rest hs hrest ih =>
    obtain ⟨u, x, v, h1, h2, _, h3, _, h4⟩ := hs
    have hqp : q.position = u.length := by rw [h4]; rfl
    obtain ⟨U, tag, V, e, hU, hb, hg, hp⟩ := legal_node hd hz hT hc hfree hforced hwhole h1 h2
    simp only [linesLoop] at h
    cases hsk : skipNodes p.position (T.map Prod.fst) with
    | error e => rw [hsk] at h; cases h
    | ok j =>
      simp only [hsk, ok_bind] at h
      cases hsl : slice (T.map Prod.fst) j ((q.position : Int) + 1) with
      | error e => rw [hsl] at h; cases h
      | ok ns =>
        simp only [hsl, ok_bind] at h
        cases hl : linesLoop (T.map Prod.fst) rest q.position with
        | error e => rw [hl] at h; cases h
        | ok ls' =>
          simp only [hl, ok_bind, pure_eq_ok] at h
          cases h
          simp only [renderLoop, h0.startOfLine, hzero q (by simp)] at ho
          cases hn : nodesLoop l.toOptions [] zero ns [] it with
          | error e => rw [hn] at ho; cases ho
          | ok r =>
            simp only [hn, ok_bind, h0.endOfLine] at ho
            cases hr : renderLoop l.toOptions [] ls' r.2 with
            | error e => rw [hr] at ho; cases ho
            | ok out' =>
              simp only [hr, ok_bind, pure_eq_ok] at ho
              cases ho
              rw [hqp, ← hU] at hsl
              obtain ⟨D, L, hh, g1, g2, g5, g3, g4⟩ := line_fill hd hz hT hc hfree hforced hwhole e hb hg hp (by rw [hU]; exact h3) hsk hsl hn
              rw [g1, g4]
              have ed : T.drop q.position = (x, tag) :: V := by rw [e, hqp, ← hU]; simp
              cases hrest with
              | nil =>
                have hlast := hpos q (by simp)
                have hV : V = [] := by
                  have := congrArg List.length e
                  simp only [List.length_append, List.length_cons] at this
                  exact List.eq_nil_of_length_eq_zero (by omega)
                have ht : tag = none := hend (x, tag) (by rw [e, hV]; simp)
                simp only [linesLoop] at hl
                cases hl
                simp only [renderLoop] at hr
                cases hr
                subst ht hV
                have := Fills.last (full := full) (g := gapText l) 
                  (hy := fun s h => mayEnd l.toOptions s h ∧ (full = true → mustEnd l.toOptions s h)) D L hh g2 g5
                  ⟨g3.1, fun _ h => by cases h⟩
                simpa [symsOf] using this
              | @cons _ q' rest' hs' hrest' =>
                have := ih (by simp) (fun y hy => hpos y (by simpa using hy)) (fun y hy => hzero y (by simp [hy])) hl hr (fun hf => (hgood hf).tail)
                rw [ed, symsOf_cons] at this
                have hfp : full = true → ∃ t, .part t ∈ L := by
                  intro hf
                  have hgd := (List.isChain_cons_cons.mp (hgood hf)).1
                  rw [hqp, ← hU] at hgd
                  refine line_part hd hz hT hc hfree hforced hwhole e hb (hun hf) ?_ (by rw [hU]; exact h3) hgd g1 g2
                  rintro rfl
                  obtain ⟨_, _, _, hs1, _, _, hs3, _, hs4⟩ := hs'
                  have e9 := congrArg List.length e
                  have e8 := congrArg List.length hs1
                  simp only [List.length_append, List.length_cons, List.length_nil, List.length_map] at e8 e9
                  omega
                refine Fills.line D L tag hh g2 g5 ?_ hg ?_ ⟨g3.1, fun hf => ?_⟩ hfp this
                · intro t ht
                  have hx := hT (x, tag) (by rw [e]; simp)
                  unfold NodeOf at hx
                  subst ht
                  cases hk : x.kind with
                  | box => exact hb hk
                  | glue =>
                    simp only [hk] at hx
                    rcases hx with ⟨h, _⟩ | ⟨h, _⟩ <;> cases h
                  | penalty =>
                    simp only [hk] at hx
                    exact hx.1 t rfl
                · rintro rfl
                  have eu : U.map Prod.fst = u := by
                    rw [e, List.map_append] at h1
                    exact (List.append_inj h1 (by simpa using hU)).1
                  exact hends U x V e (by rw [eu]; exact h2)
                · obtain ⟨t, ht⟩ := hfp hf
                  rcases g3.2 with h | h
                  · rw [h] at ht; cases ht
                  · exact h

end

end Verif.Proofs.LB
