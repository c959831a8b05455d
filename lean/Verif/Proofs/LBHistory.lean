import Verif.Proofs.LBReuse
import Verif.Proofs.LBAny

/-! # What the history and the sequences of the words change

Nothing here depends on the laws of numbers or on the options. -/

namespace Verif.Proofs.LB
open Verif.Go Verif.Model Verif.Model.LB Verif.Spec Verif.Spec.Ansi Verif.Spec.LB Verif.Props

variable {F : Type} [Arith F]

set_option linter.unusedSectionVars false

/-! ## Nodes without their renderers -/

theorem Twin.refl (l : LineBreaker F) : Twin l l := ⟨rfl, rfl, rfl⟩

/-- The nodes of a result, without their renderers. -/
def bareNodes {α : Type} (r : Res (List (Node F) × α)) : Res (List (Node F)) := r.map (fun p => p.1.map strip)

theorem bareNodes_seq {α β γ δ : Type} {r : Res (List (Node F) × α)} {r' : Res (List (Node F) × β)}
    {f : List (Node F) × α → Res (List (Node F) × γ)} {f' : List (Node F) × β → Res (List (Node F) × δ)}
    (h : bareNodes r = bareNodes r') (hf : ∀ p p', bareNodes (f p) = bareNodes (f' p')) :
    bareNodes (do let p ← r; let q ← f p; return (p.1 ++ q.1, q.2)) =
      bareNodes (do let p ← r'; let q ← f' p; return (p.1 ++ q.1, q.2)) := by
  unfold bareNodes at *
  cases r with
  | error e =>
    cases r' with
    | error e' => exact h
    | ok p' => cases h
  | ok p =>
    cases r' with
    | error e' => cases h
    | ok p' =>
      have h1 : p.1.map strip = p'.1.map strip := Except.ok.inj h
      have h2 := hf p p'
      simp only [ok_bind]
      cases e1 : f p with
      | error e =>
        cases e2 : f' p' with
        | error e' => rw [e1, e2] at h2; exact h2
        | ok q' => rw [e1, e2] at h2; cases h2
      | ok q =>
        cases e2 : f' p' with
        | error e' => rw [e1, e2] at h2; cases h2
        | ok q' =>
          rw [e1, e2] at h2
          have h3 : q.1.map strip = q'.1.map strip := Except.ok.inj h2
          simp only [ok_bind, pure_eq_ok, Except.map, List.map_append, h1, h3]

section
variable {l l' : LineBreaker F} (hl : Twin l l')
include hl

theorem box_bare (s s' : TokState) (text : List Rune) :
    bareNodes (.ok ([(s.push text).box l text], s.push text)) = bareNodes (.ok ([(s'.push text).box l' text], s'.push text)) := by
  simp only [bareNodes, Except.map, List.map_cons, List.map_nil, box_strip l l' hl.options (s.push text) (s'.push text)]

theorem markNodes_same (s s' : TokState) (pen : F) (text : List Rune) :
    bareNodes (.ok (markNodes l pen text s)) = bareNodes (.ok (markNodes l' pen text s')) := by
  simp only [bareNodes, Except.map, markNodes, List.map_cons, List.map_nil,
    box_strip l l' hl.options (s.push text) (s'.push text), hl.options]

theorem softLoop_same (parts : List (List Rune)) (s s' : TokState) :
    (softLoop l parts s).1.map strip = (softLoop l' parts s').1.map strip := by
  induction parts generalizing s s' with
  | nil => rfl
  | cons part rest ih =>
    simp only [softLoop, List.map_cons, List.map_append, ih (s.push part) (s'.push part), pushHyphen_twin hl,
      box_strip l l' hl.options (s.push part) (s'.push part)]

theorem wordNodes_same (word : List Rune) (s s' : TokState) : bareNodes (wordNodes l word s) = bareNodes (wordNodes l' word s') := by
  unfold wordNodes
  rw [hl.options]
  split
  · exact markNodes_same hl s s' _ word
  · cases callSplit l'.hyphenator word with
    | error e => rfl
    | ok hy =>
      simp only [ok_bind]
      cases slice hy 0 ((hy.length : Int) - 1) with
      | error e => rfl
      | ok parts =>
        simp only [ok_bind]
        cases index hy ((hy.length : Int) - 1) with
        | error e => rfl
        | ok last =>
          simp only [ok_bind, pure_eq_ok, bareNodes, Except.map, List.map_append, List.map_cons, List.map_nil,
            softLoop_same hl parts s s', box_strip l l' hl.options _ ((softLoop l' parts s').2.push last)]

theorem wordsLoop_same (words : List (List Rune)) (s s' : TokState) :
    bareNodes (wordsLoop l words s) = bareNodes (wordsLoop l' words s') := by
  induction words generalizing s s' with
  | nil => rfl
  | cons w rest ih => exact bareNodes_seq (wordNodes_same hl w s s') (fun p p' => ih p.2 p'.2)

theorem partNodes_same (env : Env) (part : List Rune) (s s' : TokState) :
    bareNodes (partNodes env l part s) = bareNodes (partNodes env l' part s') := by
  unfold partNodes
  rw [hl.options]
  split
  · exact markNodes_same hl s s' _ part
  · split
    · exact box_bare hl s s' part
    · cases splitWord part with
      | error e => rfl
      | ok words => exact wordsLoop_same hl words s s'

theorem partsLoop_same (env : Env) (parts : List (List Rune)) (s s' : TokState) :
    bareNodes (partsLoop env l parts s) = bareNodes (partsLoop env l' parts s') := by
  induction parts generalizing s s' with
  | nil => rfl
  | cons w rest ih => exact bareNodes_seq (partNodes_same hl env w s s') (fun p p' => ih p.2 p'.2)

end

/-- The nodes of texts found in a word. -/
def textNodes (env : Env) (l : LineBreaker F) : List (List Rune) → Res (List (Node F))
  | [] => .ok []
  | t :: ts => do
    let parts ← callSplit l.punctuator t
    let p ← bareNodes (partsLoop env l parts ⟨false, none, [], [], []⟩)
    let q ← textNodes env l ts
    return p ++ q

theorem strippedLoop_texts (env : Env) {l l' : LineBreaker F} (hl : Twin l l') (mem : List Rune) (toks : List Ansi.StrippedToken)
    (a : AState) : bareNodes (strippedLoop env l mem toks a) = textNodes env l' (toks.map (fun x => textRunes mem x.text)) := by
  induction toks generalizing a with
  | nil => rfl
  | cons t ts ih =>
    simp only [strippedLoop, List.map_cons, textNodes, hl.options]
    cases callSplit l'.punctuator (textRunes mem t.text) with
    | error e => rfl
    | ok parts =>
      simp only [ok_bind]
      have h := partsLoop_same hl env parts ⟨false, none, fieldRunes mem t.start, fieldRunes mem t.stop, a⟩ ⟨false, none, [], [], []⟩
      rw [← h]
      cases partsLoop env l parts ⟨false, none, fieldRunes mem t.start, fieldRunes mem t.stop, a⟩ with
      | error e => rfl
      | ok p =>
        have h2 := ih p.2.close
        rw [← h2]
        simp only [bareNodes, Except.map, ok_bind]
        cases strippedLoop env l mem ts p.2.close with
        | error e => rfl
        | ok q => simp only [ok_bind, pure_eq_ok, List.map_append]

theorem textNodes_full (env : Env) (l : LineBreaker F) (h : callSplit l.punctuator [] = .ok []) (ts : List (List Rune)) :
    textNodes env l ts = textNodes env l (ts.filter (fun t => decide (t ≠ []))) := by
  induction ts with
  | nil => rfl
  | cons t ts ih =>
    by_cases e : t = []
    · subst e
      rw [List.filter_cons_of_neg (by simp), ← ih, textNodes, h]
      simp only [ok_bind, partsLoop, bareNodes, Except.map, List.map_nil, List.nil_append]
      cases textNodes env l ts <;> rfl
    · rw [List.filter_cons_of_pos (by simpa using e), textNodes, textNodes, ih]

/-- Two words of which the same nodes are made. -/
def SameNodes (rt : Runtime) (env : Env) (l : LineBreaker F) (t t' : List Rune) : Prop :=
  bareNodes (boxNodes rt env l t []) = bareNodes (boxNodes rt env l t' [])

theorem bareNodes_bind {α β : Type} (r : Res α) {f f' : α → Res (List (Node F) × β)} (h : ∀ p, bareNodes (f p) = bareNodes (f' p)) :
    bareNodes (r >>= f) = bareNodes (r >>= f') := by
  cases r with
  | error e => rfl
  | ok p => exact h p

theorem boxNodes_same (rt : Runtime) (env : Env) {l l' : LineBreaker F} (hl : Twin l l') (t : List Rune) (a a' : AState) :
    bareNodes (boxNodes rt env l t a) = bareNodes (boxNodes rt env l' t a') := by
  unfold boxNodes
  refine bareNodes_bind _ (fun p => ?_)
  exact (strippedLoop_texts env hl p.2 p.1 a).trans (strippedLoop_texts env (Twin.refl l') p.2 p.1 a').symm

theorem found_texts {rt : Runtime} {env : Env} (l : LineBreaker F) {t : List Rune} {xs : List Span} (h : Found rt env t xs) (a : AState) :
    bareNodes (boxNodes rt env l t a) = textNodes env l (xs.map Span.text) := by
  obtain ⟨toks, mem, h1, rfl⟩ := h
  unfold boxNodes
  rw [h1]
  simp only [ok_bind]
  rw [strippedLoop_texts env (Twin.refl l), List.map_map]
  rfl

theorem tokensLoop_same (rt : Runtime) (env : Env) {l l' : LineBreaker F} (hl : Twin l l') {ts ts' : List (List Rune)}
    (h : List.Forall₂ (SameNodes rt env l') ts ts') (a a' : AState) :
    bareNodes (tokensLoop rt env l ts a) = bareNodes (tokensLoop rt env l' ts' a') := by
  induction h generalizing a a' with
  | nil => rfl
  | @cons t t' ts ts' h ht ih =>
    have hb : bareNodes (boxNodes rt env l t a) = bareNodes (boxNodes rt env l' t' a') := by
      exact (boxNodes_same rt env hl t a []).trans (h.trans (boxNodes_same rt env (Twin.refl l') t' [] a'))
    cases ht with
    | nil =>
      simp only [tokensLoop]
      exact bareNodes_seq (f := fun p => .ok (endNodes, p.2)) (f' := fun p => .ok (endNodes, p.2)) hb (fun _ _ => rfl)
    | @cons u u' us us' hu hus =>
      simp only [tokensLoop]
      have hgg : gapNodes l = gapNodes l' := by unfold gapNodes; rw [hl.options, hl.space]
      have := bareNodes_seq (f := fun p => do let q ← tokensLoop rt env l (u :: us) p.2; return (gapNodes l ++ q.1, q.2))
        (f' := fun p => do let q ← tokensLoop rt env l' (u' :: us') p.2; return (gapNodes l' ++ q.1, q.2)) hb (by
          intro p p'
          exact bareNodes_seq (r := .ok (gapNodes l, p.2)) (r' := .ok (gapNodes l', p'.2)) (f := fun _ => tokensLoop rt env l (u :: us) p.2)
            (f' := fun _ => tokensLoop rt env l' (u' :: us') p'.2) (by rw [hgg]; rfl) (fun _ _ => ih p.2 p'.2))
      have e : ∀ (k : LineBreaker F) (w : List Rune) (ws : List (List Rune)) (b : AState),
          (do let p ← boxNodes rt env k w b
              let q ← (do let q ← tokensLoop rt env k ws p.2; return (gapNodes k ++ q.1, q.2) : Res _)
              return (p.1 ++ q.1, q.2) : Res (List (Node F) × AState)) =
          (do let p ← boxNodes rt env k w b
              let q ← tokensLoop rt env k ws p.2
              return (p.1 ++ gapNodes k ++ q.1, q.2)) := by
        intro k w ws b
        cases boxNodes rt env k w b with
        | error e => rfl
        | ok p =>
          simp only [ok_bind]
          cases tokensLoop rt env k ws p.2 with
          | error e => rfl
          | ok q => simp only [ok_bind, pure_eq_ok, List.append_assoc]
      rw [e, e] at this
      exact this

/-! ## Renderers -/

/-- The sequences of the renderers are among `S`. -/
def SeqsAll (S : List (List Rune)) (s : AState) : Prop := ∀ a ∈ s, (a.start = [] ∨ a.start ∈ S) ∧ (a.stop = [] ∨ a.stop ∈ S)

/-- The boxes have renderers of their texts. -/
def Shows (s : AState) (nodes : List (Node F)) : Prop :=
  ∀ n ∈ nodes, n.attr = none ∨ ∃ k, n.attr = some k ∧ (s.map Attribute.text)[k]? = some n.value

theorem shows_nil (s : AState) : Shows s ([] : List (Node F)) := fun _ h => by cases h

theorem Shows.grow {s t : AState} {nodes : List (Node F)} (h : Shows s nodes) (hp : s.map Attribute.text <+: t.map Attribute.text) :
    Shows t nodes := by
  intro n hn
  rcases h n hn with e | ⟨k, h1, h2⟩
  · exact Or.inl e
  · obtain ⟨u, hu⟩ := hp
    refine Or.inr ⟨k, h1, ?_⟩
    rw [← hu, List.getElem?_append_left (List.getElem?_eq_some_iff.mp h2).1]; exact h2

theorem Shows.append {s : AState} {a b : List (Node F)} (ha : Shows s a) (hb : Shows s b) : Shows s (a ++ b) := by
  intro n hn
  rcases List.mem_append.mp hn with h | h
  · exact ha n h
  · exact hb n h

theorem shows_bare (s : AState) (nodes : List (Node F)) (h : ∀ n ∈ nodes, n.attr = none) : Shows s nodes :=
  fun n hn => Or.inl (h n hn)

/-- The state of a token: its sequences are among `S`. -/
structure Known (S : List (List Rune)) (s : TokState) : Prop where
  start : s.start = [] ∨ s.start ∈ S
  stop : s.stop = [] ∨ s.stop ∈ S
  list : SeqsAll S s.list

/-- What is known of nodes and the state after them. -/
structure KeptT (S : List (List Rune)) (s : TokState) (p : List (Node F) × TokState) : Prop where
  grow : s.list.map Attribute.text <+: p.2.list.map Attribute.text
  known : Known S p.2
  shows : Shows p.2.list p.1

theorem KeptT.seq {S : List (List Rune)} {s : TokState} {p q : List (Node F) × TokState} (h : KeptT S s p) (g : KeptT S p.2 q) :
    KeptT S s (p.1 ++ q.1, q.2) :=
  ⟨h.grow.trans g.grow, g.known, (h.shows.grow g.grow).append g.shows⟩

theorem KeptT.bare {S : List (List Rune)} {s : TokState} (h : Known S s) (nodes : List (Node F)) (hn : ∀ n ∈ nodes, n.attr = none) :
    KeptT S s (nodes, s) := ⟨List.prefix_refl _, h, shows_bare _ _ hn⟩

theorem push_kept {S : List (List Rune)} (l : LineBreaker F) {s : TokState} (h : Known S s) (text : List Rune) :
    KeptT S s ([(s.push text).box l text], s.push text) := by
  have e : ∃ a, (s.push text).list = s.list ++ [a] ∧ a.text = text ∧ (a.start = [] ∨ a.start ∈ S) ∧ a.stop = [] := by
    unfold TokState.push AState.push
    by_cases hs : s.isStarted
    · exact ⟨_, rfl, by simp [hs, Attribute.new, Attribute.setLevel]⟩
    · exact ⟨_, rfl, by simpa [hs, Attribute.new, Attribute.setLevel] using h.start⟩
  obtain ⟨a, e, h1, h2, h3⟩ := e
  refine ⟨by rw [e]; simp, ⟨h.start, h.stop, ?_⟩, ?_⟩
  · rw [e]
    intro b hb
    rcases List.mem_append.mp hb with hb | hb
    · exact h.list b hb
    · simp only [List.mem_singleton] at hb
      subst hb
      exact ⟨h2, Or.inl h3⟩
  · intro n hn
    simp only [List.mem_singleton] at hn
    subst hn
    exact Or.inr ⟨s.list.length, rfl, by rw [e]; simp [TokState.box, newBox, h1]⟩

theorem markNodes_kept {S : List (List Rune)} (l : LineBreaker F) (pen : F) {s : TokState} (h : Known S s) (text : List Rune) :
    KeptT S s (markNodes l pen text s) := by
  have := push_kept l h text
  refine ⟨this.grow, this.known, ?_⟩
  intro n hn
  simp only [markNodes, List.mem_cons, List.not_mem_nil, or_false] at hn
  rcases hn with rfl | rfl | rfl | rfl | rfl
  · exact Or.inl rfl
  · exact Or.inl rfl
  · exact this.shows _ (by simp)
  · exact Or.inl rfl
  · exact Or.inl rfl

theorem softLoop_kept {S : List (List Rune)} (l : LineBreaker F) (parts : List (List Rune)) {s : TokState} (h : Known S s) :
    KeptT S s (softLoop l parts s) := by
  induction parts generalizing s with
  | nil => exact KeptT.bare h [] (by simp)
  | cons part rest ih =>
    have h1 := push_kept l h part
    have h2 := ih h1.known
    have h3 := h1.seq ((KeptT.bare h1.known (pushHyphen l) (pushHyphen_bare l)).seq h2)
    exact h3

theorem wordNodes_kept {S : List (List Rune)} (l : LineBreaker F) (word : List Rune) {s : TokState} (h : Known S s)
    {p : List (Node F) × TokState} (e : wordNodes l word s = .ok p) : KeptT S s p := by
  unfold wordNodes at e
  split at e
  · cases e; exact markNodes_kept l _ h word
  · cases h1 : callSplit l.hyphenator word with
    | error x => rw [h1] at e; cases e
    | ok hy =>
      simp only [h1, ok_bind] at e
      cases h2 : slice hy 0 ((hy.length : Int) - 1) with
      | error x => rw [h2] at e; cases e
      | ok parts =>
        simp only [h2, ok_bind] at e
        cases h3 : index hy ((hy.length : Int) - 1) with
        | error x => rw [h3] at e; cases e
        | ok last =>
          simp only [h3, ok_bind, pure_eq_ok] at e
          cases e
          have g := softLoop_kept l parts h
          exact g.seq (push_kept l g.known last)

theorem wordsLoop_kept {S : List (List Rune)} (l : LineBreaker F) (words : List (List Rune)) {s : TokState} (h : Known S s)
    {p : List (Node F) × TokState} (e : wordsLoop l words s = .ok p) : KeptT S s p := by
  induction words generalizing s p with
  | nil => cases e; exact KeptT.bare h [] (by simp)
  | cons w rest ih =>
    simp only [wordsLoop] at e
    cases h1 : wordNodes l w s with
    | error x => rw [h1] at e; cases e
    | ok q =>
      simp only [h1, ok_bind] at e
      have g := wordNodes_kept l w h h1
      cases h2 : wordsLoop l rest q.2 with
      | error x => rw [h2] at e; cases e
      | ok r =>
        simp only [h2, ok_bind, pure_eq_ok] at e
        cases e
        exact g.seq (ih g.known h2)

theorem partNodes_kept {S : List (List Rune)} (env : Env) (l : LineBreaker F) (part : List Rune) {s : TokState} (h : Known S s)
    {p : List (Node F) × TokState} (e : partNodes env l part s = .ok p) : KeptT S s p := by
  unfold partNodes at e
  split at e
  · cases e; exact markNodes_kept l _ h part
  · split at e
    · cases e; exact push_kept l h part
    · cases h1 : splitWord part with
      | error x => rw [h1] at e; cases e
      | ok words =>
        rw [h1] at e
        exact wordsLoop_kept l words h e

theorem partsLoop_kept {S : List (List Rune)} (env : Env) (l : LineBreaker F) (parts : List (List Rune)) {s : TokState} (h : Known S s)
    {p : List (Node F) × TokState} (e : partsLoop env l parts s = .ok p) : KeptT S s p := by
  induction parts generalizing s p with
  | nil => cases e; exact KeptT.bare h [] (by simp)
  | cons w rest ih =>
    simp only [partsLoop] at e
    cases h1 : partNodes env l w s with
    | error x => rw [h1] at e; cases e
    | ok q =>
      simp only [h1, ok_bind] at e
      have g := partNodes_kept env l w h h1
      cases h2 : partsLoop env l rest q.2 with
      | error x => rw [h2] at e; cases e
      | ok r =>
        simp only [h2, ok_bind, pure_eq_ok] at e
        cases e
        exact g.seq (ih g.known h2)

theorem close_kept {S : List (List Rune)} {s : TokState} (h : Known S s) :
    s.close.map Attribute.text = s.list.map Attribute.text ∧ SeqsAll S s.close := by
  unfold TokState.close
  split
  · exact ⟨rfl, h.list⟩
  · unfold AState.setLastStop
    cases e : s.list.getLast? with
    | none => exact ⟨rfl, h.list⟩
    | some a =>
      have e2 : s.list = s.list.dropLast ++ [a] := (List.dropLast_append_getLast? a e).symm
      simp only
      constructor
      · conv_rhs => rw [e2]
        simp [Attribute.setStop]
      · intro b hb
        rcases List.mem_append.mp hb with hb | hb
        · exact h.list b (List.dropLast_subset _ hb)
        · simp only [List.mem_singleton] at hb
          subst hb
          exact ⟨(h.list a (List.mem_of_getLast? e)).1, h.stop⟩

/-- What is known of nodes and the renderers after them. -/
structure KeptA (S : List (List Rune)) (a : AState) (p : List (Node F) × AState) : Prop where
  grow : a.map Attribute.text <+: p.2.map Attribute.text
  known : SeqsAll S p.2
  shows : Shows p.2 p.1

theorem strippedLoop_kept {S : List (List Rune)} (env : Env) (l : LineBreaker F) (mem : List Rune) (toks : List Ansi.StrippedToken)
    {a : AState} (h : SeqsAll S a) (hs : ∀ t ∈ toks, (fieldRunes mem t.start = [] ∨ fieldRunes mem t.start ∈ S) ∧
      (fieldRunes mem t.stop = [] ∨ fieldRunes mem t.stop ∈ S))
    {p : List (Node F) × AState} (e : strippedLoop env l mem toks a = .ok p) : KeptA S a p := by
  induction toks generalizing a p with
  | nil => cases e; exact ⟨List.prefix_refl _, h, shows_nil _⟩
  | cons t ts ih =>
    simp only [strippedLoop] at e
    cases h1 : callSplit l.punctuator (textRunes mem t.text) with
    | error x => rw [h1] at e; cases e
    | ok parts =>
      simp only [h1, ok_bind] at e
      cases h2 : partsLoop env l parts ⟨false, none, fieldRunes mem t.start, fieldRunes mem t.stop, a⟩ with
      | error x => rw [h2] at e; cases e
      | ok q =>
        simp only [h2, ok_bind] at e
        have g := partsLoop_kept (S := S) env l parts ⟨(hs t (by simp)).1, (hs t (by simp)).2, h⟩ h2
        obtain ⟨c1, c2⟩ := close_kept g.known
        cases h3 : strippedLoop env l mem ts q.2.close with
        | error x => rw [h3] at e; cases e
        | ok r =>
          simp only [h3, ok_bind, pure_eq_ok] at e
          cases e
          have k := ih c2 (fun t ht => hs t (by simp [ht])) h3
          have k1 : q.2.list.map Attribute.text <+: r.2.map Attribute.text := c1 ▸ k.grow
          exact ⟨g.grow.trans k1, k.known, (g.shows.grow k1).append k.shows⟩

theorem tokensLoop_kept {S : List (List Rune)} (rt : Runtime) (env : Env) (l : LineBreaker F) (tokens : List (List Rune))
    {a : AState} (h : SeqsAll S a) {p : List (Node F) × AState} (e : tokensLoop rt env l tokens a = .ok p) :
    ∃ tks, List.Forall₂ (Found rt env) tokens tks ∧ KeptA (S ++ seqsOf tks) a p := by
  induction tokens generalizing S a p with
  | nil => cases e; exact ⟨[], .nil, List.prefix_refl _, by simpa [seqsOf] using h, shows_nil _⟩
  | cons t ts ih =>
    have hb : ∀ b, boxNodes rt env l t a = .ok b → ∃ xs, Found rt env t xs ∧ KeptA (S ++ seqsOf [xs]) a b := by
      intro b hb
      unfold boxNodes at hb
      cases h1 : Ansi.stripToken env (t ++ rt.spare t) ⟨0, t.length⟩ with
      | error x => rw [h1] at hb; cases hb
      | ok r =>
        simp only [h1, ok_bind] at hb
        refine ⟨_, ⟨r.1, r.2, h1, rfl⟩, strippedLoop_kept env l r.2 r.1 (S := S ++ seqsOf [_]) ?_ ?_ hb⟩
        · intro x hx
          have := h x hx
          exact ⟨this.1.imp_right (fun h => by simp [h]), this.2.imp_right (fun h => by simp [h])⟩
        · intro x hx
          constructor
          · right
            simp only [seqsOf, List.flatMap_cons, List.flatMap_nil, List.append_nil, List.mem_append, List.mem_flatMap, List.mem_map]
            exact Or.inr ⟨_, ⟨x, hx, rfl⟩, by simp⟩
          · right
            simp only [seqsOf, List.flatMap_cons, List.flatMap_nil, List.append_nil, List.mem_append, List.mem_flatMap, List.mem_map]
            exact Or.inr ⟨_, ⟨x, hx, rfl⟩, by simp⟩
    cases ts with
    | nil =>
      simp only [tokensLoop] at e
      cases h1 : boxNodes rt env l t a with
      | error x => rw [h1] at e; cases e
      | ok b =>
        simp only [h1, ok_bind, pure_eq_ok] at e
        cases e
        obtain ⟨xs, f, k⟩ := hb b h1
        have he : ∀ n ∈ (endNodes : List (Node F)), n.attr = none := by simp [endNodes, newGlue, newPenalty]
        exact ⟨[xs], .cons f .nil, k.grow, k.known, k.shows.append (shows_bare _ _ he)⟩
    | cons u us =>
      simp only [tokensLoop] at e
      cases h1 : boxNodes rt env l t a with
      | error x => rw [h1] at e; cases e
      | ok b =>
        simp only [h1, ok_bind] at e
        obtain ⟨xs, f, k⟩ := hb b h1
        cases h2 : tokensLoop rt env l (u :: us) b.2 with
        | error x => rw [h2] at e; cases e
        | ok q =>
          simp only [h2, ok_bind, pure_eq_ok] at e
          cases e
          obtain ⟨tks, fs, ks⟩ := ih k.known h2
          have hg : ∀ n ∈ gapNodes l, n.attr = none := by simp [gapNodes, newGlue, newPenalty]
          have es : S ++ seqsOf [xs] ++ seqsOf tks = S ++ seqsOf (xs :: tks) := by simp [seqsOf]
          rw [es] at ks
          exact ⟨xs :: tks, .cons f fs, k.grow.trans ks.grow, ks.known,
            ((k.shows.grow ks.grow).append (shows_bare _ _ hg)).append ks.shows⟩

/-! ## Rendering -/

theorem sprinkled_emit {S : List (List Rune)} {t out x : List Rune} (h : Sprinkled S t out) (hx : x = [] ∨ x ∈ S) :
    Sprinkled S t (out ++ x) := by
  have := sprinkled_append h (sprinkled_seq hx)
  rwa [List.append_nil] at this

section
variable {S : List (List Rune)} {s : AState} (hs : SeqsAll S s)
include hs

theorem sprinkled_writeStart {a : Attribute} (ha : a ∈ s) {t out : List Rune} (h : Sprinkled S t out) :
    Sprinkled S t (a.writeStart out) := by
  unfold Attribute.writeStart
  split
  · exact sprinkled_emit h (hs a ha).1
  · exact h

theorem sprinkled_writeStop {a : Attribute} (ha : a ∈ s) {t out : List Rune} (h : Sprinkled S t out) :
    Sprinkled S t (a.writeStop out) := by
  unfold Attribute.writeStop
  split
  · exact sprinkled_emit h (hs a ha).2
  · exact h

theorem sprinkled_startLoop (n k : Nat) {t out : List Rune} (h : Sprinkled S t out) :
    Sprinkled S t (Verif.Model.startLoop s n k out) := by
  induction n generalizing k out with
  | zero =>
    unfold Verif.Model.startLoop
    cases e : s[k]? with
    | none => exact h
    | some a => exact sprinkled_writeStart hs (List.mem_of_getElem? e) h
  | succ n ih =>
    unfold Verif.Model.startLoop
    cases e : s[k]? with
    | none => exact h
    | some a => exact ih _ (sprinkled_writeStart hs (List.mem_of_getElem? e) h)

theorem sprinkled_startOfLine (it : AIter) {t out : List Rune} (h : Sprinkled S t out) : Sprinkled S t (it.startOfLine s out) := by
  unfold AIter.startOfLine
  cases it.current with
  | none => exact h
  | some k =>
    simp only
    cases s[k]? with
    | none => exact h
    | some a =>
      simp only
      generalize (if a.hasStop = true then a.level - 1 else a.level) = v
      split
      · exact h
      · exact sprinkled_startLoop hs _ _ h

theorem sprinkled_stopLoop (level : Int) (as : List Attribute) (ha : ∀ a ∈ as, a ∈ s) {t out : List Rune} (h : Sprinkled S t out) :
    Sprinkled S t (stopLoop level as out) := by
  induction as generalizing out with
  | nil => exact h
  | cons a as ih =>
    unfold stopLoop
    split
    · exact h
    · exact ih (fun x hx => ha x (by simp [hx])) (sprinkled_writeStop hs (ha a (by simp)) h)

theorem sprinkled_endOfLine (it : AIter) {t out : List Rune} (h : Sprinkled S t out) : Sprinkled S t (it.endOfLine s out) := by
  unfold AIter.endOfLine
  cases it.current with
  | none => exact h
  | some k =>
    simp only
    cases s[k]? with
    | none => exact h
    | some a =>
      simp only
      generalize (if a.hasStop = true then a.level - 1 else a.level) = v
      split
      · exact h
      · exact sprinkled_stopLoop hs _ _ (fun x hx => List.mem_of_mem_drop hx) h

theorem sprinkled_box {n : Node F} (hn : n.attr = none ∨ ∃ k, n.attr = some k ∧ (s.map Attribute.text)[k]? = some n.value)
    {t out : List Rune} (h : Sprinkled S t out) : Sprinkled S (renderBox [] (strip n) t) (renderBox s n out) := by
  have e : renderBox [] (strip n) t = t ++ n.value := rfl
  rw [e]
  unfold renderBox
  rcases hn with e | ⟨k, e, h1⟩
  · rw [e]
    exact sprinkled_append h (sprinkled_text S n.value)
  · rw [e]
    simp only [List.getElem?_map, Option.map_eq_some_iff] at h1
    obtain ⟨a, h2, h3⟩ := h1
    simp only [h2]
    have hm := List.mem_of_getElem? h2
    unfold Attribute.render
    refine sprinkled_writeStop hs hm ?_
    rw [← h3]
    have h4 := sprinkled_writeStart hs hm h
    split
    · exact sprinkled_append h4 (sprinkled_text S a.text)
    · rename_i h5
      have : a.text = [] := List.eq_nil_of_length_eq_zero (by omega)
      rw [this, List.append_nil]
      exact h4

theorem nodesLoop_sprinkled (o : Options F) (ratio : F) (nodes : List (Node F)) (hg : Shows s nodes) {t out : List Rune}
    (h : Sprinkled S t out) (it0 it : AIter) :
    (∃ e, nodesLoop o [] ratio (nodes.map strip) t it0 = .error e ∧ nodesLoop o s ratio nodes out it = .error e) ∨
    ∃ p p', nodesLoop o [] ratio (nodes.map strip) t it0 = .ok p ∧ nodesLoop o s ratio nodes out it = .ok p' ∧
      Sprinkled S p.1 p'.1 := by
  induction nodes generalizing t out it0 it with
  | nil => exact Or.inr ⟨_, _, rfl, rfl, h⟩
  | cons n rest ih =>
    have hr : Shows s rest := fun x hx => hg x (by simp [hx])
    have hk : (strip n).kind = n.kind := rfl
    rw [List.map_cons, nodesLoop, nodesLoop, hk]
    cases n.kind with
    | box => exact ih hr (sprinkled_box hs (hg n (by simp)) h) _ _
    | glue =>
      simp only
      have e : glueText o ratio (strip n) = glueText o ratio n := rfl
      rw [e]
      cases glueText o ratio n with
      | error e => exact Or.inl ⟨e, rfl, rfl⟩
      | ok sp =>
        simp only [ok_bind]
        exact ih hr (sprinkled_append h (sprinkled_text S sp)) _ _
    | penalty =>
      simp only [List.isEmpty_map]
      have e : (strip n).penalty = n.penalty := rfl
      rw [e]
      refine ih hr ?_ _ _
      split
      · exact sprinkled_append h (sprinkled_text S hyphen)
      · exact h

theorem renderLoop_sprinkled (o : Options F) (lines : List (F × List (Node F))) (hg : ∀ x ∈ lines, Shows s x.2) (it0 it : AIter) :
    (∃ e, renderLoop o [] (lines.map (fun x => (x.1, x.2.map strip))) it0 = .error e ∧ renderLoop o s lines it = .error e) ∨
    ∃ p p', renderLoop o [] (lines.map (fun x => (x.1, x.2.map strip))) it0 = .ok p ∧ renderLoop o s lines it = .ok p' ∧
      List.Forall₂ (Sprinkled S) p p' := by
  have h0 : AllPlain ([] : AState) := fun a h => by cases h
  induction lines generalizing it0 it with
  | nil => exact Or.inr ⟨_, _, rfl, rfl, .nil⟩
  | cons x rest ih =>
    rw [List.map_cons, renderLoop, renderLoop, h0.startOfLine]
    rcases nodesLoop_sprinkled hs o x.1 x.2 (hg x (by simp)) (sprinkled_startOfLine hs it (.nil)) it0 it with
      ⟨e, h1, h2⟩ | ⟨p, p', h1, h2, h3⟩
    · simp only [h1, h2]
      exact Or.inl ⟨e, rfl, rfl⟩
    · simp only [h1, h2, ok_bind, h0.endOfLine]
      rcases ih (fun x hx => hg x (by simp [hx])) p.2 p'.2 with ⟨e, g1, g2⟩ | ⟨q, q', g1, g2, g3⟩
      · simp only [g1, g2]
        exact Or.inl ⟨e, rfl, rfl⟩
      · simp only [g1, g2]
        exact Or.inr ⟨_, _, rfl, rfl, .cons (sprinkled_endOfLine hs _ h3) g3⟩

theorem render_sprinkled (o : Options F) (nodes : List (Node F)) (hg : Shows s nodes) (bs : List (Point F)) :
    (∃ e, render o [] (nodes.map strip) bs = .error e ∧ render o s nodes bs = .error e) ∨
    ∃ p p', render o [] (nodes.map strip) bs = .ok p ∧ render o s nodes bs = .ok p' ∧ List.Forall₂ (Sprinkled S) p p' := by
  unfold render
  obtain ⟨h1, h2⟩ := linesLoop_strip nodes bs.tail 0
  rw [h1]
  cases h : linesLoop nodes bs.tail 0 with
  | error e => exact Or.inl ⟨e, rfl, rfl⟩
  | ok ls =>
    simp only [Except.map, ok_bind]
    exact renderLoop_sprinkled hs o ls (fun x hx n hn => hg n (h2 ls h x hx n hn)) _ _

end

/-! ## A whole call -/

/-- A line breaker after any history has the options of New, and renderers of the sequences of the words. -/
theorem anyUsed_twin {env : Env} {dict : Dictionary} {opts : List (Opt F)} {l : LineBreaker F} {seqs : List (List Rune)}
    (h : AnyUsed env dict opts l seqs) : Twin l (new env dict opts) ∧ SeqsAll seqs l.attrList := by
  induction h with
  | new => exact ⟨Twin.refl _, fun a h => by cases h⟩
  | @call l l' seqs rt tokens tks maxWidth r _ hf h ih =>
    unfold leftAlignUniform leftAlignedNodes at h
    cases h1 : tokensLoop rt env l tokens l.attrList with
    | error e => rw [h1] at h; cases h
    | ok p =>
      obtain ⟨tks', hf', k⟩ := tokensLoop_kept rt env l tokens ih.2 h1
      have et : tks' = tks := by
        clear h1 h k
        induction hf generalizing tks' with
        | nil => cases hf'; rfl
        | cons g _ ih2 =>
          cases hf' with
          | cons g' gs' =>
            obtain ⟨_, _, a1, a2⟩ := g
            obtain ⟨_, _, b1, b2⟩ := g'
            rw [a1] at b1
            cases b1
            rw [← a2, ← b2, ih2 _ gs']
      rw [et] at k
      have : l' = { l with attrList := p.2 } := by
        simp only [h1, ok_bind] at h
        cases h2 : breakPoints rt l.toOptions p.1 (l.scale maxWidth) with
        | error e => simp only [h2] at h; cases h
        | ok c =>
          simp only [h2, ok_bind] at h
          cases c with
          | none => cases h; rfl
          | some chain =>
            simp only at h
            cases h3 : render l.toOptions p.2 p.1 chain with
            | error e => rw [h3] at h; cases h
            | ok ls => simp only [h3, ok_bind] at h; cases h; rfl
      subst this
      exact ⟨⟨ih.1.options, ih.1.space, ih.1.hyphen⟩, k.known⟩

/-- Calls on words of which the same nodes are made, on line breakers that only differ by their renderers. -/
theorem align_same (rt : Runtime) {env : Env} {l l' : LineBreaker F} (hl : Twin l l') {S S' : List (List Rune)}
    (hs : SeqsAll S l.attrList) (hs' : SeqsAll S' l'.attrList) {ts ts' : List (List Rune)}
    (h : List.Forall₂ (SameNodes rt env l') ts ts') (maxWidth : F) :
    (∃ e, leftAlignUniform rt env l ts maxWidth = .error e ∧ leftAlignUniform rt env l' ts' maxWidth = .error e) ∨
    (∃ m m', leftAlignUniform rt env l ts maxWidth = .ok (none, m) ∧ leftAlignUniform rt env l' ts' maxWidth = .ok (none, m')) ∨
    ∃ lines lines' m m' tks tks' shown, leftAlignUniform rt env l ts maxWidth = .ok (some lines, m) ∧
      leftAlignUniform rt env l' ts' maxWidth = .ok (some lines', m') ∧
      List.Forall₂ (Found rt env) ts tks ∧ List.Forall₂ (Found rt env) ts' tks' ∧
      List.Forall₂ (Sprinkled (S ++ seqsOf tks)) shown lines ∧ List.Forall₂ (Sprinkled (S' ++ seqsOf tks')) shown lines' := by
  unfold leftAlignUniform leftAlignedNodes
  have hb := tokensLoop_same rt env hl h l.attrList l'.attrList
  cases h1 : tokensLoop rt env l ts l.attrList with
  | error e =>
    cases h2 : tokensLoop rt env l' ts' l'.attrList with
    | ok p' => rw [h1, h2] at hb; cases hb
    | error e' =>
      rw [h1, h2] at hb
      cases hb
      exact Or.inl ⟨e, rfl, rfl⟩
  | ok p =>
    cases h2 : tokensLoop rt env l' ts' l'.attrList with
    | error e' => rw [h1, h2] at hb; cases hb
    | ok p' =>
      rw [h1, h2] at hb
      have hn : p.1.map strip = p'.1.map strip := Except.ok.inj hb
      simp only [ok_bind]
      have hbp : breakPoints rt l.toOptions p.1 (l.scale maxWidth) = breakPoints rt l'.toOptions p'.1 (l'.scale maxWidth) := by
        rw [← breakPoints_strip, hn, breakPoints_strip, hl.options]
      rw [hbp]
      cases breakPoints rt l'.toOptions p'.1 (l'.scale maxWidth) with
      | error e => exact Or.inl ⟨e, rfl, rfl⟩
      | ok b =>
        simp only [ok_bind]
        cases b with
        | none => exact Or.inr (Or.inl ⟨_, _, rfl, rfl⟩)
        | some chain =>
          simp only
          obtain ⟨tks, hf, k⟩ := tokensLoop_kept rt env l ts hs h1
          obtain ⟨tks', hf', k'⟩ := tokensLoop_kept rt env l' ts' hs' h2
          have r1 := render_sprinkled k.known l.toOptions p.1 k.shows chain
          have r2 := render_sprinkled k'.known l'.toOptions p'.1 k'.shows chain
          rw [← hn, ← hl.options] at r2
          rw [← hl.options]
          rcases r1 with ⟨e, a1, a2⟩ | ⟨q, q', a1, a2, a3⟩
          · rcases r2 with ⟨e', b1, b2⟩ | ⟨r, r', b1, b2, b3⟩
            · rw [a1] at b1
              cases b1
              rw [a2, b2]
              exact Or.inl ⟨e, rfl, rfl⟩
            · rw [a1] at b1; cases b1
          · rcases r2 with ⟨e', b1, b2⟩ | ⟨r, r', b1, b2, b3⟩
            · rw [a1] at b1; cases b1
            · rw [a1] at b1
              cases b1
              rw [a2, b2]
              exact Or.inr (Or.inr ⟨q', r', _, _, tks, tks', q, rfl, rfl, hf, hf', a3, b3⟩)

end Verif.Proofs.LB
