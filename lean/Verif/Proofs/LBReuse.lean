import Verif.Spec.Linebreak
import Verif.Proofs.LBReady

/-! # Line breakers that are used several times

Nothing here depends on the laws of numbers. -/

set_option linter.unusedSectionVars false
set_option linter.unusedSimpArgs false

namespace Verif.Proofs.LB
open Verif.Go Verif.Model Verif.Model.LB Verif.Spec Verif.Spec.Ansi Verif.Spec.LB Verif.Props

variable {F : Type} [Arith F]

/-- A node without renderer. -/
def strip (n : Node F) : Node F := { n with attr := none }

/-! ## Break points do not depend on renderers -/

theorem index_map {α β : Type} (f : α → β) (l : List α) (i : Int) : index (l.map f) i = (index l i).map f := by
  unfold index
  simp only [List.getElem?_map]
  split
  · rfl
  · cases l[i.toNat]? <;> rfl

theorem slice_map {α β : Type} (f : α → β) (l : List α) (i j : Int) : slice (l.map f) i j = (slice l i j).map (List.map f) := by
  unfold slice
  simp only [List.length_map]
  split
  · simp [Except.map, List.map_take, List.map_drop]
  · rfl

theorem demeritsAndClass_strip (o : Options F) (nodes : List (Node F)) (a : BreakPoint F) (n : Node F) (r : F) :
    demeritsAndClass o (nodes.map strip) a (strip n) r = demeritsAndClass o nodes a n r := by
  unfold demeritsAndClass
  rw [index_map]
  cases index nodes (a.position : Int) <;> rfl

theorem sumFromLoop_strip (b : Bool) (nodes : List (Node F)) (sum : Sums F) :
    sumFromLoop b (nodes.map strip) sum = sumFromLoop b nodes sum := by
  induction nodes generalizing b sum with
  | nil => rfl
  | cons n ns ih =>
    rw [List.map_cons, sumFromLoop, sumFromLoop, ih, ih]
    rfl

theorem insertNew_strip (rt : Runtime) (o : Options F) (nodes : List (Node F)) (sum : Sums F) (i n : Nat) (low : F)
    (c : Candidates F) : insertNew rt o (nodes.map strip) sum i n low c = insertNew rt o nodes sum i n low c := by
  unfold insertNew sumFromNode
  rw [← List.map_drop, sumFromLoop_strip]

theorem mainLoopOn_strip (rt : Runtime) (o : Options F) (nodes : List (Node F)) (ideal : F) (sum : Sums F) (i : Nat)
    (n : Node F) (active seen : List (BreakPoint F)) (c : Candidates F) (low : F) :
    mainLoopOn rt o (nodes.map strip) ideal sum i (strip n) active seen c low =
      mainLoopOn rt o nodes ideal sum i n active seen c low := by
  induction active generalizing seen c low with
  | nil => rfl
  | cons a rest ih =>
    rw [mainLoopOn, mainLoopOn]
    simp only [demeritsAndClass_strip, insertNew_strip, ih]
    rfl

theorem breakLoop_strip (rt : Runtime) (o : Options F) (nodes : List (Node F)) (ideal : F) (prev : Option (Node F))
    (rest : List (Node F)) (i : Nat) (sum : Sums F) (active : List (BreakPoint F)) :
    breakLoop rt o (nodes.map strip) ideal (prev.map strip) (rest.map strip) i sum active =
      breakLoop rt o nodes ideal prev rest i sum active := by
  induction rest generalizing prev i sum active with
  | nil => rfl
  | cons n rest ih =>
    have hk : (strip n).kind = n.kind := rfl
    have hp : (prev.map strip).map Node.kind = prev.map Node.kind := by cases prev <;> rfl
    have hs : some (strip n) = (some n).map strip := rfl
    rw [List.map_cons, breakLoop, breakLoop, hk]
    cases n.kind with
    | box => simp only; rw [hs, ih]; rfl
    | glue =>
      simp only [hp, mainLoop, mainLoopOn_strip, hs, ih]
      rfl
    | penalty =>
      simp only [mainLoop, mainLoopOn_strip, hs, ih]
      rfl

theorem findStartNode_strip (nodes : List (Node F)) (i : Nat) : findStartNode (nodes.map strip) i = findStartNode nodes i := by
  induction nodes generalizing i with
  | nil => rfl
  | cons n rest ih =>
    rw [List.map_cons, findStartNode, findStartNode]
    simp only [ih]
    rfl

theorem breakPoints_strip (rt : Runtime) (o : Options F) (nodes : List (Node F)) (ideal : F) :
    breakPoints rt o (nodes.map strip) ideal = breakPoints rt o nodes ideal := by
  unfold breakPoints
  simp only [findStartNode_strip, ← List.map_drop, List.getElem?_map]
  have e : (if findStartNode nodes 0 = 0 then none else Option.map strip nodes[findStartNode nodes 0 - 1]?) =
      (if findStartNode nodes 0 = 0 then none else nodes[findStartNode nodes 0 - 1]?).map strip := by split <;> rfl
  rw [e, breakLoop_strip]

/-! ## Rendering of texts without style -/

/-- All renderers are without style. -/
def AllPlain (s : AState) : Prop := ∀ a ∈ s, a.start = [] ∧ a.stop = [] ∧ a.level = 0

theorem AllPlain.startOfLine {s : AState} (h : AllPlain s) (it : AIter) (out : List Rune) : it.startOfLine s out = out := by
  unfold AIter.startOfLine
  cases it.current with
  | none => rfl
  | some k =>
    cases e : s[k]? with
    | none => simp only [e]
    | some a =>
      obtain ⟨_, h2, h3⟩ := h a (List.mem_of_getElem? e)
      simp [e, Attribute.hasStop, h2, h3]

theorem AllPlain.endOfLine {s : AState} (h : AllPlain s) (it : AIter) (out : List Rune) : it.endOfLine s out = out := by
  unfold AIter.endOfLine
  cases it.current with
  | none => rfl
  | some k =>
    cases e : s[k]? with
    | none => simp only [e]
    | some a =>
      obtain ⟨_, h2, h3⟩ := h a (List.mem_of_getElem? e)
      simp [e, Attribute.hasStop, h2, h3]

/-- Boxes have their text rendered. -/
def Good (s : AState) (nodes : List (Node F)) : Prop :=
  ∀ n ∈ nodes, n.attr = none ∨ ∃ k a, n.attr = some k ∧ s[k]? = some a ∧ a.text = n.value

theorem Good.render {s : AState} (hs : AllPlain s) {n : Node F} (h : n.attr = none ∨ ∃ k a, n.attr = some k ∧ s[k]? = some a ∧ a.text = n.value)
    (out : List Rune) : renderBox s n out = emit out n.value := by
  unfold renderBox
  rcases h with e | ⟨k, a, e, h1, h2⟩
  · rw [e]
  · obtain ⟨h3, h4, _⟩ := hs a (List.mem_of_getElem? h1)
    rw [e]
    simp [h1, render_eq, h3, h4, h2, emit]

theorem nodesLoop_strip (o : Options F) {s : AState} (hs : AllPlain s) (ratio : F) (nodes : List (Node F)) (hg : Good s nodes)
    (out : List Rune) (it it' : AIter) :
    (nodesLoop o s ratio nodes out it).map Prod.fst = (nodesLoop o [] ratio (nodes.map strip) out it').map Prod.fst := by
  induction nodes generalizing out it it' with
  | nil => rfl
  | cons n rest ih =>
    have ih' := ih (fun x hx => hg x (by simp [hx]))
    have hk : (strip n).kind = n.kind := rfl
    rw [List.map_cons, nodesLoop, nodesLoop, hk]
    cases n.kind with
    | box =>
      simp only
      rw [Good.render hs (hg n (by simp))]
      exact ih' _ _ _
    | glue =>
      simp only
      have : glueText o ratio (strip n) = glueText o ratio n := rfl
      rw [this]
      cases glueText o ratio n with
      | error e => rfl
      | ok t => exact ih' _ _ _
    | penalty =>
      simp only
      have : (rest.map strip).isEmpty = rest.isEmpty := by cases rest <;> rfl
      rw [this]
      exact ih' _ _ _

theorem renderLoop_strip (o : Options F) {s : AState} (hs : AllPlain s) (lines : List (F × List (Node F)))
    (hg : ∀ x ∈ lines, Good s x.2) (it it' : AIter) :
    renderLoop o s lines it = renderLoop o [] (lines.map (fun x => (x.1, x.2.map strip))) it' := by
  have h0 : AllPlain [] := fun a h => by cases h
  induction lines generalizing it it' with
  | nil => rfl
  | cons x rest ih =>
    rw [List.map_cons, renderLoop, renderLoop]
    simp only [hs.startOfLine, h0.startOfLine]
    have h := nodesLoop_strip o hs x.1 x.2 (hg x (by simp)) [] it it'
    have ih' := ih (fun y hy => hg y (by simp [hy]))
    cases h1 : nodesLoop o s x.1 x.2 [] it with
    | error e =>
      rw [h1] at h
      cases h2 : nodesLoop o [] x.1 (x.2.map strip) [] it' with
      | error e' => rw [h2] at h; cases h; rfl
      | ok p => rw [h2] at h; cases h
    | ok p =>
      rw [h1] at h
      cases h2 : nodesLoop o [] x.1 (x.2.map strip) [] it' with
      | error e' => rw [h2] at h; cases h
      | ok p' =>
        rw [h2] at h
        have hp : p.1 = p'.1 := by simpa [Except.map] using h
        simp only [ok_bind, hs.endOfLine, h0.endOfLine, hp]
        rw [ih' p.2 p'.2]

theorem skipLoop_strip (nodes : List (Node F)) (j : Nat) : skipLoop (nodes.map strip) j = skipLoop nodes j := by
  induction nodes generalizing j with
  | nil => rfl
  | cons n rest ih => rw [List.map_cons, skipLoop, skipLoop, ih]; rfl

theorem skipNodes_strip (i : Nat) (nodes : List (Node F)) : skipNodes i (nodes.map strip) = skipNodes i nodes := by
  unfold skipNodes
  rw [slice_map, List.length_map]
  cases slice nodes (i : Int) nodes.length with
  | error e => rfl
  | ok t => simp only [Except.map, ok_bind, skipLoop_strip]

theorem slice_mem {α : Type} {l t : List α} {i j : Int} (h : slice l i j = .ok t) : ∀ x ∈ t, x ∈ l := by
  unfold slice at h
  split at h
  · cases h
    intro x hx
    exact List.mem_of_mem_drop (List.mem_of_mem_take hx)
  · cases h

theorem linesLoop_strip (nodes : List (Node F)) (bs : List (Point F)) (i : Nat) :
    linesLoop (nodes.map strip) bs i = (linesLoop nodes bs i).map (List.map (fun x => (x.1, x.2.map strip))) ∧
      ∀ lines, linesLoop nodes bs i = .ok lines → ∀ x ∈ lines, ∀ n ∈ x.2, n ∈ nodes := by
  induction bs generalizing i with
  | nil => exact ⟨rfl, fun _ h => by cases h; simp⟩
  | cons b bs ih =>
    obtain ⟨ih1, ih2⟩ := ih b.position
    rw [linesLoop, linesLoop, skipNodes_strip]
    cases skipNodes i nodes with
    | error e => exact ⟨rfl, fun _ h => by cases h⟩
    | ok k =>
      simp only [ok_bind, slice_map]
      cases h1 : slice nodes (k : Int) ((b.position : Int) + 1) with
      | error e => exact ⟨rfl, fun _ h => by cases h⟩
      | ok t =>
        simp only [Except.map, ok_bind, ih1]
        cases h2 : linesLoop nodes bs b.position with
        | error e => exact ⟨rfl, fun _ h => by cases h⟩
        | ok ls =>
          refine ⟨rfl, fun lines h => ?_⟩
          cases h
          intro x hx
          simp only [List.mem_cons] at hx
          rcases hx with rfl | hx
          · exact slice_mem h1
          · exact ih2 ls h2 x hx

theorem render_strip (o : Options F) {s : AState} (hs : AllPlain s) (nodes : List (Node F)) (hg : Good s nodes)
    (bs : List (Point F)) : render o s nodes bs = render o [] (nodes.map strip) bs := by
  unfold render
  obtain ⟨h1, h2⟩ := linesLoop_strip nodes bs.tail 0
  rw [h1]
  cases h : linesLoop nodes bs.tail 0 with
  | error e => rfl
  | ok ls =>
    simp only [Except.map, ok_bind]
    exact renderLoop_strip o hs ls (fun x hx n hn => hg n (h2 ls h x hx n hn)) _ _

/-! ## Nodes -/

/-- The state of a token without style. -/
structure Bare (s : TokState) : Prop where
  start : s.start = []
  stop : s.stop = []
  plain : AllPlain s.list

/-- What is known of nodes and the state after them. -/
structure Out (s : TokState) (p : List (Node F) × TokState) : Prop where
  grow : s.list <+: p.2.list
  bare : Bare p.2
  good : Good p.2.list p.1

/-- Nodes that only differ by their renderers. -/
def Alike (s s' : TokState) (r r' : Res (List (Node F) × TokState)) : Prop :=
  (∃ e, r = .error e ∧ r' = .error e) ∨
    ∃ p p', r = .ok p ∧ r' = .ok p' ∧ p.1.map strip = p'.1.map strip ∧ Out s p ∧ Out s' p'

theorem good_nil (s : AState) : Good s ([] : List (Node F)) := fun _ h => by cases h

theorem Good.grow {s t : AState} {nodes : List (Node F)} (h : Good s nodes) (hp : s <+: t) : Good t nodes := by
  intro n hn
  rcases h n hn with e | ⟨k, a, h1, h2, h3⟩
  · exact Or.inl e
  · obtain ⟨u, rfl⟩ := hp
    refine Or.inr ⟨k, a, h1, ?_, h3⟩
    have : k < s.length := (List.getElem?_eq_some_iff.mp h2).1
    rw [List.getElem?_append_left this]; exact h2

theorem Good.append {s : AState} {a b : List (Node F)} (ha : Good s a) (hb : Good s b) : Good s (a ++ b) := by
  intro n hn
  rcases List.mem_append.mp hn with h | h
  · exact ha n h
  · exact hb n h

theorem good_bare (s : AState) (nodes : List (Node F)) (h : ∀ n ∈ nodes, n.attr = none) : Good s nodes :=
  fun n hn => Or.inl (h n hn)

/-- Two steps. -/
theorem Alike.seq {s s' : TokState} {r r' : Res (List (Node F) × TokState)}
    {f f' : List (Node F) × TokState → Res (List (Node F) × TokState)} (h : Alike s s' r r')
    (hf : ∀ p p', Out s p → Out s' p' → Alike p.2 p'.2 (f p) (f' p')) :
    Alike s s' (do let p ← r; let q ← f p; return (p.1 ++ q.1, q.2)) (do let p ← r'; let q ← f' p; return (p.1 ++ q.1, q.2)) := by
  rcases h with ⟨e, rfl, rfl⟩ | ⟨p, p', rfl, rfl, h1, h2, h3⟩
  · exact Or.inl ⟨e, rfl, rfl⟩
  · rcases hf p p' h2 h3 with ⟨e, h4, h5⟩ | ⟨q, q', h4, h5, h6, h7, h8⟩
    · refine Or.inl ⟨e, ?_, ?_⟩
      · simp only [ok_bind, h4]; rfl
      · simp only [ok_bind, h5]; rfl
    · refine Or.inr ⟨(p.1 ++ q.1, q.2), (p'.1 ++ q'.1, q'.2), ?_, ?_, ?_, ?_, ?_⟩
      · simp only [ok_bind, h4]; rfl
      · simp only [ok_bind, h5]; rfl
      · simp only [List.map_append, h1, h6]
      · exact ⟨h2.grow.trans h7.grow, h7.bare, (h2.good.grow h7.grow).append h7.good⟩
      · exact ⟨h3.grow.trans h8.grow, h8.bare, (h3.good.grow h8.grow).append h8.good⟩

theorem backLevel_plain {s : AState} (h : AllPlain s) : s.backLevel = 0 := by
  unfold AState.backLevel
  cases e : s.getLast? with
  | none => rfl
  | some a =>
    obtain ⟨_, h2, h3⟩ := h a (List.mem_of_getLast? e)
    simp [Attribute.hasStop, h2, h3]

theorem push_bare {s : TokState} (h : Bare s) (text : List Rune) :
    s.list <+: (s.push text).list ∧ Bare (s.push text) ∧
      ∃ k a, (s.push text).current = some k ∧ (s.push text).list[k]? = some a ∧ a.text = text := by
  have e : (s.push text).list = s.list ++ [⟨text, [], [], 0⟩] := by
    unfold TokState.push AState.push
    simp only [h.start, backLevel_plain h.plain]
    split <;> simp [Attribute.new, Attribute.hasStart, Attribute.setLevel]
  refine ⟨by rw [e]; simp, ⟨h.start, h.stop, ?_⟩, s.list.length, ⟨text, [], [], 0⟩, rfl, by rw [e]; simp, rfl⟩
  rw [e]
  intro a ha
  rcases List.mem_append.mp ha with ha | ha
  · exact h.plain a ha
  · simp only [List.mem_singleton] at ha
    subst ha; simp

theorem box_good (l : LineBreaker F) {s : TokState} (h : Bare s) (text : List Rune) :
    Good (s.push text).list [(s.push text).box l text] := by
  obtain ⟨_, _, k, a, h1, h2, h3⟩ := push_bare h text
  intro n hn
  simp only [List.mem_singleton] at hn
  subst hn
  exact Or.inr ⟨k, a, h1, h2, h3⟩

theorem box_strip (l l' : LineBreaker F) (hl : l.toOptions = l'.toOptions) (s s' : TokState) (text : List Rune) :
    strip (s.box l text) = strip (s'.box l' text) := by
  simp only [TokState.box, newBox, strip, hl]

/-- Two line breakers that differ by their attributes. -/
structure Twin (l l' : LineBreaker F) : Prop where
  options : l.toOptions = l'.toOptions
  space : l.spaceWidth = l'.spaceWidth
  hyphen : l.hyphenWidth = l'.hyphenWidth

section
variable {l l' : LineBreaker F} (hl : Twin l l')
include hl

theorem pushHyphen_twin : pushHyphen l = pushHyphen l' := by
  unfold pushHyphen
  rw [hl.options, hl.hyphen]

omit hl in
theorem pushHyphen_bare (l : LineBreaker F) : ∀ n ∈ pushHyphen l, n.attr = none := by
  unfold pushHyphen
  split <;> simp [newPenalty, newGlue]

theorem box_alike {s s' : TokState} (h : Bare s) (h' : Bare s') (text : List Rune) :
    Alike s s' (.ok ([(s.push text).box l text], s.push text)) (.ok ([(s'.push text).box l' text], s'.push text)) := by
  obtain ⟨a1, a2, _⟩ := push_bare h text
  obtain ⟨b1, b2, _⟩ := push_bare h' text
  refine Or.inr ⟨_, _, rfl, rfl, ?_, ⟨a1, a2, box_good l h text⟩, ⟨b1, b2, box_good l' h' text⟩⟩
  simp only [List.map_cons, List.map_nil, box_strip l l' hl.options (s.push text) (s'.push text)]

theorem markNodes_alike {s s' : TokState} (h : Bare s) (h' : Bare s') (pen : F) (text : List Rune) :
    Alike s s' (.ok (markNodes l pen text s)) (.ok (markNodes l' pen text s')) := by
  obtain ⟨a1, a2, _⟩ := push_bare h text
  obtain ⟨b1, b2, _⟩ := push_bare h' text
  refine Or.inr ⟨_, _, rfl, rfl, ?_, ⟨a1, a2, ?_⟩, ⟨b1, b2, ?_⟩⟩
  · simp only [markNodes, List.map_cons, List.map_nil, box_strip l l' hl.options (s.push text) (s'.push text), hl.options]
  · have := box_good l h text
    intro n hn
    simp only [markNodes, List.mem_cons, List.not_mem_nil, or_false] at hn
    rcases hn with rfl | rfl | rfl | rfl | rfl
    · exact Or.inl rfl
    · exact Or.inl rfl
    · exact this _ (by simp)
    · exact Or.inl rfl
    · exact Or.inl rfl
  · have := box_good l' h' text
    intro n hn
    simp only [markNodes, List.mem_cons, List.not_mem_nil, or_false] at hn
    rcases hn with rfl | rfl | rfl | rfl | rfl
    · exact Or.inl rfl
    · exact Or.inl rfl
    · exact this _ (by simp)
    · exact Or.inl rfl
    · exact Or.inl rfl

theorem softLoop_alike (parts : List (List Rune)) {s s' : TokState} (h : Bare s) (h' : Bare s') :
    Alike s s' (.ok (softLoop l parts s)) (.ok (softLoop l' parts s')) := by
  induction parts generalizing s s' with
  | nil => exact Or.inr ⟨_, _, rfl, rfl, rfl, ⟨List.prefix_refl _, h, fun _ h => by cases h⟩, ⟨List.prefix_refl _, h', fun _ h => by cases h⟩⟩
  | cons part rest ih =>
    have hstep := (box_alike hl h h' part).seq
      (f := fun p => do let q ← (.ok (softLoop l rest p.2) : Res _); return (pushHyphen l ++ q.1, q.2))
      (f' := fun p => do let q ← (.ok (softLoop l' rest p.2) : Res _); return (pushHyphen l' ++ q.1, q.2)) (by
        intro p p' h1 h2
        rcases ih h1.bare h2.bare with ⟨e, h3, _⟩ | ⟨q, q', h3, h4, h5, h6, h7⟩
        · cases h3
        · cases h3; cases h4
          refine Or.inr ⟨_, _, rfl, rfl, ?_, ⟨h6.grow, h6.bare, ?_⟩, ⟨h7.grow, h7.bare, ?_⟩⟩
          · simp only [List.map_append, h5, pushHyphen_twin hl]
          · exact (good_bare _ _ (pushHyphen_bare l)).append h6.good
          · exact (good_bare _ _ (pushHyphen_bare l')).append h7.good)
    exact hstep

theorem wordNodes_alike (word : List Rune) {s s' : TokState} (h : Bare s) (h' : Bare s') :
    Alike s s' (wordNodes l word s) (wordNodes l' word s') := by
  unfold wordNodes
  rw [hl.options]
  split
  · exact markNodes_alike hl h h' _ word
  · cases callSplit l'.hyphenator word with
    | error e => exact Or.inl ⟨e, rfl, rfl⟩
    | ok hy =>
      simp only [ok_bind]
      cases slice hy 0 ((hy.length : Int) - 1) with
      | error e => exact Or.inl ⟨e, rfl, rfl⟩
      | ok parts =>
        simp only [ok_bind]
        cases index hy ((hy.length : Int) - 1) with
        | error e => exact Or.inl ⟨e, rfl, rfl⟩
        | ok last =>
          have := (softLoop_alike hl parts h h').seq
            (f := fun p => .ok ([(p.2.push last).box l last], p.2.push last))
            (f' := fun p => .ok ([(p.2.push last).box l' last], p.2.push last))
            (fun p p' h1 h2 => box_alike hl h1.bare h2.bare last)
          exact this

theorem wordsLoop_alike (words : List (List Rune)) {s s' : TokState} (h : Bare s) (h' : Bare s') :
    Alike s s' (wordsLoop l words s) (wordsLoop l' words s') := by
  induction words generalizing s s' with
  | nil => exact Or.inr ⟨_, _, rfl, rfl, rfl, ⟨List.prefix_refl _, h, fun _ h => by cases h⟩, ⟨List.prefix_refl _, h', fun _ h => by cases h⟩⟩
  | cons w rest ih => exact (wordNodes_alike hl w h h').seq (fun p p' h1 h2 => ih h1.bare h2.bare)

theorem partNodes_alike (env : Env) (part : List Rune) {s s' : TokState} (h : Bare s) (h' : Bare s') :
    Alike s s' (partNodes env l part s) (partNodes env l' part s') := by
  unfold partNodes
  rw [hl.options]
  split
  · exact markNodes_alike hl h h' _ part
  · split
    · exact box_alike hl h h' part
    · cases splitWord part with
      | error e => exact Or.inl ⟨e, rfl, rfl⟩
      | ok words => exact wordsLoop_alike hl words h h'

theorem partsLoop_alike (env : Env) (parts : List (List Rune)) {s s' : TokState} (h : Bare s) (h' : Bare s') :
    Alike s s' (partsLoop env l parts s) (partsLoop env l' parts s') := by
  induction parts generalizing s s' with
  | nil => exact Or.inr ⟨_, _, rfl, rfl, rfl, ⟨List.prefix_refl _, h, fun _ h => by cases h⟩, ⟨List.prefix_refl _, h', fun _ h => by cases h⟩⟩
  | cons w rest ih => exact (partNodes_alike hl env w h h').seq (fun p p' h1 h2 => ih h1.bare h2.bare)

end

/-- Nodes that only differ by their renderers, with the lists of attributes. -/
def AlikeA (a a' : AState) (r r' : Res (List (Node F) × AState)) : Prop :=
  (∃ e, r = .error e ∧ r' = .error e) ∨
    ∃ p p', r = .ok p ∧ r' = .ok p' ∧ p.1.map strip = p'.1.map strip ∧ a <+: p.2 ∧ a' <+: p'.2 ∧
      AllPlain p.2 ∧ AllPlain p'.2 ∧ Good p.2 p.1 ∧ Good p'.2 p'.1

section
variable {l l' : LineBreaker F} (hl : Twin l l')
include hl

theorem boxNodes_alike (rt : Runtime) {env : Env} (hd : AsciiDigits env) {t : List Rune} (ht : EscapeFree t) {a a' : AState}
    (h : AllPlain a) (h' : AllPlain a') : AlikeA a a' (boxNodes rt env l t a) (boxNodes rt env l' t a') := by
  obtain ⟨toks, mem, h1, h2⟩ := strips_bare rt hd t ht.1 ht.2
  obtain ⟨tok, rfl, h3⟩ : ∃ tok, toks = [tok] ∧ spanOf mem tok = ⟨[], t, []⟩ := by
    rcases toks with _ | ⟨tok, _ | ⟨_, _⟩⟩
    · cases h2
    · exact ⟨tok, rfl, by simpa [bare] using h2⟩
    · simp [bare] at h2
  have e1 : fieldRunes mem tok.start = [] := congrArg Span.start h3
  have e2 : textRunes mem tok.text = t := congrArg Span.text h3
  have e3 : fieldRunes mem tok.stop = [] := congrArg Span.stop h3
  unfold boxNodes
  rw [h1]
  simp only [ok_bind, strippedLoop, e1, e2, e3, hl.options]
  cases callSplit l'.punctuator t with
  | error e => exact Or.inl ⟨e, rfl, rfl⟩
  | ok parts =>
    simp only [ok_bind]
    rcases partsLoop_alike hl env parts (s := ⟨false, none, [], [], a⟩) (s' := ⟨false, none, [], [], a'⟩)
      ⟨rfl, rfl, h⟩ ⟨rfl, rfl, h'⟩ with ⟨e, h4, h5⟩ | ⟨p, p', h4, h5, h6, h7, h8⟩
    · exact Or.inl ⟨e, by rw [h4]; rfl, by rw [h5]; rfl⟩
    · have c1 : p.2.close = p.2.list := by simp [TokState.close, h7.bare.stop]
      have c2 : p'.2.close = p'.2.list := by simp [TokState.close, h8.bare.stop]
      rw [h4, h5]
      simp only [ok_bind, c1, c2, pure_eq_ok, List.append_nil]
      exact Or.inr ⟨_, _, rfl, rfl, h6, h7.grow, h8.grow, h7.bare.plain, h8.bare.plain, h7.good, h8.good⟩

theorem tokensLoop_alike (rt : Runtime) {env : Env} (hd : AsciiDigits env) (tokens : List (List Rune))
    (ht : ∀ t ∈ tokens, EscapeFree t) {a a' : AState} (h : AllPlain a) (h' : AllPlain a') :
    AlikeA a a' (tokensLoop rt env l tokens a) (tokensLoop rt env l' tokens a') := by
  induction tokens generalizing a a' with
  | nil =>
    exact Or.inr ⟨_, _, rfl, rfl, rfl, List.prefix_refl _, List.prefix_refl _, h, h', good_nil _, good_nil _⟩
  | cons t ts ih =>
    have hb := boxNodes_alike hl rt hd (ht t (by simp)) h h'
    cases ts with
    | nil =>
      simp only [tokensLoop]
      rcases hb with ⟨e, h4, h5⟩ | ⟨p, p', h4, h5, h6, h7, h8, h9, h10, h11, h12⟩
      · exact Or.inl ⟨e, by rw [h4]; rfl, by rw [h5]; rfl⟩
      · rw [h4, h5]
        have he : ∀ n ∈ (endNodes : List (Node F)), n.attr = none := by simp [endNodes, newGlue, newPenalty]
        refine Or.inr ⟨_, _, rfl, rfl, ?_, h7, h8, h9, h10, h11.append (good_bare _ _ he), h12.append (good_bare _ _ he)⟩
        simp only [List.map_append, h6]
    | cons u us =>
      simp only [tokensLoop]
      rcases hb with ⟨e, h4, h5⟩ | ⟨p, p', h4, h5, h6, h7, h8, h9, h10, h11, h12⟩
      · exact Or.inl ⟨e, by rw [h4]; rfl, by rw [h5]; rfl⟩
      · rw [h4, h5]
        simp only [ok_bind]
        rcases ih (fun t h => ht t (by simp [h])) h9 h10 with ⟨e, g4, g5⟩ | ⟨q, q', g4, g5, g6, g7, g8, g9, g10, g11, g12⟩
        · exact Or.inl ⟨e, by rw [g4]; rfl, by rw [g5]; rfl⟩
        · rw [g4, g5]
          have hg : ∀ l : LineBreaker F, ∀ n ∈ gapNodes l, n.attr = none := by intro l; simp [gapNodes, newGlue, newPenalty]
          have hgg : gapNodes l = gapNodes l' := by unfold gapNodes; rw [hl.options, hl.space]
          refine Or.inr ⟨_, _, rfl, rfl, ?_, h7.trans g7, h8.trans g8, g9, g10,
            ((h11.grow g7).append (good_bare _ _ (hg l))).append g11, ((h12.grow g8).append (good_bare _ _ (hg l'))).append g12⟩
          simp only [List.map_append, h6, g6, hgg]

/-- The lines do not depend on the attributes left by earlier calls, and no style is left. -/
theorem align_twin (rt : Runtime) {env : Env} (hd : AsciiDigits env) (tokens : List (List Rune))
    (ht : ∀ t ∈ tokens, EscapeFree t) (h : AllPlain l.attrList) (h' : AllPlain l'.attrList) (maxWidth : F) :
    (leftAlignUniform rt env l tokens maxWidth).map Prod.fst = (leftAlignUniform rt env l' tokens maxWidth).map Prod.fst ∧
      ∀ r m, leftAlignUniform rt env l tokens maxWidth = .ok (r, m) → Twin m l' ∧ AllPlain m.attrList := by
  unfold leftAlignUniform leftAlignedNodes
  rcases tokensLoop_alike hl rt hd tokens ht h h' with ⟨e, h4, h5⟩ | ⟨p, p', h4, h5, h6, h7, h8, h9, h10, h11, h12⟩
  · rw [h4, h5]; exact ⟨rfl, fun _ _ h => by cases h⟩
  · rw [h4, h5]
    simp only [ok_bind]
    have hb : breakPoints rt l.toOptions p.1 (l.scale maxWidth) = breakPoints rt l'.toOptions p'.1 (l'.scale maxWidth) := by
      rw [← breakPoints_strip, h6, breakPoints_strip, hl.options]
    rw [hb]
    cases breakPoints rt l'.toOptions p'.1 (l'.scale maxWidth) with
    | error e => exact ⟨rfl, fun _ _ h => by cases h⟩
    | ok b =>
      simp only [ok_bind]
      cases b with
      | none =>
        refine ⟨rfl, fun _ _ h => ?_⟩
        cases h
        exact ⟨⟨hl.options, hl.space, hl.hyphen⟩, h9⟩
      | some chain =>
        simp only
        have hr : render l.toOptions p.2 p.1 chain = render l'.toOptions p'.2 p'.1 chain := by
          rw [render_strip _ h9 _ h11, h6, ← render_strip _ h10 _ h12, hl.options]
        rw [hr]
        cases render l'.toOptions p'.2 p'.1 chain with
        | error e => exact ⟨rfl, fun _ _ h => by cases h⟩
        | ok lines =>
          refine ⟨rfl, fun _ _ h => ?_⟩
          cases h
          exact ⟨⟨hl.options, hl.space, hl.hyphen⟩, h9⟩

end

/-- After any history of calls on texts without escape sequences. -/
theorem used_twin {env : Env} (hd : AsciiDigits env) {dict : Dictionary} {opts : List (Opt F)} {l : LineBreaker F}
    (h : Used env dict opts l) : Twin l (new env dict opts) ∧ AllPlain l.attrList := by
  have h0 : AllPlain (new env dict opts : LineBreaker F).attrList := fun a h => by cases h
  induction h with
  | new => exact ⟨⟨rfl, rfl, rfl⟩, h0⟩
  | @call l l' rt tokens maxWidth r _ ht hr ih =>
    exact (align_twin ih.1 rt hd tokens ht ih.2 h0 maxWidth).2 _ _ hr

end Verif.Proofs.LB
