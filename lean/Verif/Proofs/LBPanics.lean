import Verif.Proofs.LBHistory
import Verif.Spec.Survived

/-! # What a panic leaves behind -/

namespace Verif.Proofs.LB
open Verif.Go Verif.Model Verif.Model.LB Verif.Spec Verif.Spec.Ansi Verif.Spec.LB Verif.Props

set_option linter.unusedSectionVars false

variable {F : Type} [Arith F]

/-! ## The results are those of the model -/

theorem andThen_left {α β : Type} (x : Left α) (f : α → Left β) : (x.andThen f).res = x.res >>= fun a => (f a).res := by
  unfold Left.andThen
  cases x.res <;> rfl

theorem wordNodesL_res (l : LineBreaker F) (word : List Rune) (s : TokState) : (wordNodesL l word s).res = wordNodes l word s := by
  unfold wordNodesL
  cases wordNodes l word s <;> rfl

/-- No panic comes after a renderer is pushed: when there are parts, there is a last one. -/
theorem last_part {hy parts : List (List Rune)} (h : slice hy 0 ((hy.length : Int) - 1) = .ok parts) :
    ∃ last, index hy ((hy.length : Int) - 1) = .ok last := by
  unfold slice at h
  unfold index
  split at h
  · rename_i h1
    cases e : hy[((hy.length : Int) - 1).toNat]? with
    | none =>
      rw [List.getElem?_eq_none_iff] at e
      omega
    | some x =>
      refine ⟨x, ?_⟩
      split
      · omega
      · simp [e]
  · cases h

theorem wordsLoopL_res (l : LineBreaker F) (words : List (List Rune)) (s : TokState) :
    (wordsLoopL l words s).res = wordsLoop l words s := by
  induction words generalizing s with
  | nil => rfl
  | cons w rest ih =>
    simp only [wordsLoopL, wordsLoop, andThen_left, wordNodesL_res, ih]
    rfl

theorem partNodesL_res (env : Env) (l : LineBreaker F) (part : List Rune) (s : TokState) :
    (partNodesL env l part s).res = partNodes env l part s := by
  unfold partNodesL partNodes
  by_cases h1 : isPunctuation env part
  · rw [if_pos h1, if_pos h1]
  · rw [if_neg h1, if_neg h1]
    by_cases h2 : (!l.wordBreak || decide ((part.length : Int) ≤ l.minHyphenate)) = true
    · rw [if_pos h2, if_pos h2]
    · rw [if_neg h2, if_neg h2]
      cases splitWord part with
      | error e => rfl
      | ok words => exact wordsLoopL_res l words s

theorem partsLoopL_res (env : Env) (l : LineBreaker F) (parts : List (List Rune)) (s : TokState) :
    (partsLoopL env l parts s).res = partsLoop env l parts s := by
  induction parts generalizing s with
  | nil => rfl
  | cons w rest ih =>
    simp only [partsLoopL, partsLoop, andThen_left, partNodesL_res, ih]
    rfl

theorem strippedLoopL_res (env : Env) (l : LineBreaker F) (mem : List Rune) (toks : List Ansi.StrippedToken) (a : AState) :
    (strippedLoopL env l mem toks a).res = strippedLoop env l mem toks a := by
  induction toks generalizing a with
  | nil => rfl
  | cons t ts ih =>
    simp only [strippedLoopL, strippedLoop]
    cases callSplit l.punctuator (textRunes mem t.text) with
    | error e => rfl
    | ok parts =>
      simp only [andThen_left, partsLoopL_res, ih, ok_bind]
      rfl

theorem boxNodesL_res (rt : Runtime) (env : Env) (l : LineBreaker F) (token : List Rune) (a : AState) :
    (boxNodesL rt env l token a).res = boxNodes rt env l token a := by
  unfold boxNodesL boxNodes
  generalize Ansi.stripToken env (token ++ rt.spare token) ⟨0, token.length⟩ = r
  cases r with
  | error e => rfl
  | ok r => exact strippedLoopL_res env l r.2 r.1 a

theorem tokensLoopL_res (rt : Runtime) (env : Env) (l : LineBreaker F) (tokens : List (List Rune)) (a : AState) :
    (tokensLoopL rt env l tokens a).res = tokensLoop rt env l tokens a := by
  induction tokens generalizing a with
  | nil => rfl
  | cons t ts ih =>
    cases ts with
    | nil =>
      simp only [tokensLoopL, tokensLoop, andThen_left, boxNodesL_res]
      rfl
    | cons u us =>
      simp only [tokensLoopL, tokensLoop, andThen_left, boxNodesL_res, ih]
      rfl

/-! ## The renderers left -/

/-- What is known of the renderers left by a call. -/
structure Leaves {α : Type} (S : List (List Rune)) (a : AState) (x : Left α) (after : α → AState) : Prop where
  grow : a.map Attribute.text <+: x.attrs.map Attribute.text
  known : SeqsAll S x.attrs
  ok : ∀ p, x.res = .ok p → x.attrs = after p

theorem wordNodesL_leaves {S : List (List Rune)} (l : LineBreaker F) (word : List Rune) {s : TokState} (h : Known S s) :
    Leaves S s.list (wordNodesL l word s) (fun p => p.2.list) := by
  unfold wordNodesL
  cases e : wordNodes l word s with
  | error x => exact ⟨List.prefix_refl _, h.list, fun p hp => by cases hp⟩
  | ok p =>
    have k := wordNodes_kept l word h e
    exact ⟨k.grow, k.known.list, fun q hq => by cases hq; rfl⟩

theorem wordsLoopL_leaves {S : List (List Rune)} (l : LineBreaker F) (words : List (List Rune)) {s : TokState} (h : Known S s) :
    Leaves S s.list (wordsLoopL l words s) (fun p => p.2.list) := by
  induction words generalizing s with
  | nil => exact ⟨List.prefix_refl _, h.list, fun p hp => by cases hp; rfl⟩
  | cons w rest ih =>
    have k := wordNodesL_leaves l w h
    simp only [wordsLoopL]
    unfold Left.andThen
    cases e : (wordNodesL l w s).res with
    | error x => exact ⟨k.grow, k.known, fun p hp => by cases hp⟩
    | ok p =>
      have e' : wordNodes l w s = .ok p := by rw [← wordNodesL_res]; exact e
      have kp := wordNodes_kept l w h e'
      have k2 := ih kp.known
      simp only
      cases e2 : (wordsLoopL l rest p.2).res with
      | error x => exact ⟨kp.grow.trans k2.grow, k2.known, fun p hp => by cases hp⟩
      | ok q =>
        have := k2.ok q e2
        have g := kp.grow.trans k2.grow
        have m := k2.known
        rw [this] at g m
        exact ⟨g, m, fun p hp => by cases hp; rfl⟩

theorem partNodesL_leaves {S : List (List Rune)} (env : Env) (l : LineBreaker F) (part : List Rune) {s : TokState} (h : Known S s) :
    Leaves S s.list (partNodesL env l part s) (fun p => p.2.list) := by
  unfold partNodesL
  split
  · have k := markNodes_kept l l.punctuationPenalty h part
    exact ⟨k.grow, k.known.list, fun q hq => by cases hq; rfl⟩
  · split
    · have k := push_kept l h part
      exact ⟨k.grow, k.known.list, fun q hq => by cases hq; rfl⟩
    · cases splitWord part with
      | error e => exact ⟨List.prefix_refl _, h.list, fun p hp => by cases hp⟩
      | ok words => exact wordsLoopL_leaves l words h

theorem partsLoopL_leaves {S : List (List Rune)} (env : Env) (l : LineBreaker F) (parts : List (List Rune)) {s : TokState} (h : Known S s) :
    Leaves S s.list (partsLoopL env l parts s) (fun p => p.2.list) := by
  induction parts generalizing s with
  | nil => exact ⟨List.prefix_refl _, h.list, fun p hp => by cases hp; rfl⟩
  | cons w rest ih =>
    have k := partNodesL_leaves env l w h
    simp only [partsLoopL]
    unfold Left.andThen
    cases e : (partNodesL env l w s).res with
    | error x => exact ⟨k.grow, k.known, fun p hp => by cases hp⟩
    | ok p =>
      have e' : partNodes env l w s = .ok p := by rw [← partNodesL_res]; exact e
      have kp := partNodes_kept env l w h e'
      have k2 := ih kp.known
      simp only
      cases e2 : (partsLoopL env l rest p.2).res with
      | error x => exact ⟨kp.grow.trans k2.grow, k2.known, fun p hp => by cases hp⟩
      | ok q =>
        have := k2.ok q e2
        have g := kp.grow.trans k2.grow
        have m := k2.known
        rw [this] at g m
        exact ⟨g, m, fun p hp => by cases hp; rfl⟩

theorem strippedLoopL_leaves {S : List (List Rune)} (env : Env) (l : LineBreaker F) (mem : List Rune) (toks : List Ansi.StrippedToken)
    {a : AState} (h : SeqsAll S a) (hs : ∀ t ∈ toks, (fieldRunes mem t.start = [] ∨ fieldRunes mem t.start ∈ S) ∧
      (fieldRunes mem t.stop = [] ∨ fieldRunes mem t.stop ∈ S)) :
    Leaves S a (strippedLoopL env l mem toks a) (fun p => p.2) := by
  induction toks generalizing a with
  | nil => exact ⟨List.prefix_refl _, h, fun p hp => by cases hp; rfl⟩
  | cons t ts ih =>
    simp only [strippedLoopL]
    cases callSplit l.punctuator (textRunes mem t.text) with
    | error e => exact ⟨List.prefix_refl _, h, fun p hp => by cases hp⟩
    | ok parts =>
      simp only
      have hk : Known S ⟨false, none, fieldRunes mem t.start, fieldRunes mem t.stop, a⟩ := ⟨(hs t (by simp)).1, (hs t (by simp)).2, h⟩
      have k := partsLoopL_leaves env l parts hk
      unfold Left.andThen
      cases e : (partsLoopL env l parts ⟨false, none, fieldRunes mem t.start, fieldRunes mem t.stop, a⟩).res with
      | error x => exact ⟨k.grow, k.known, fun p hp => by cases hp⟩
      | ok p =>
        have e' := e
        rw [partsLoopL_res] at e'
        have kp := partsLoop_kept env l parts hk e'
        obtain ⟨c1, c2⟩ := close_kept kp.known
        have k2 := ih c2 (fun t ht => hs t (by simp [ht]))
        have g : a.map Attribute.text <+: (strippedLoopL env l mem ts p.2.close).attrs.map Attribute.text := by
          refine kp.grow.trans ?_
          rw [← c1]
          exact k2.grow
        simp only
        cases e2 : (strippedLoopL env l mem ts p.2.close).res with
        | error x => exact ⟨g, k2.known, fun p hp => by cases hp⟩
        | ok q =>
          have := k2.ok q e2
          refine ⟨?_, ?_, fun p hp => by cases hp; rfl⟩
          · exact this ▸ g
          · exact this ▸ k2.known

theorem boxNodesL_leaves {S : List (List Rune)} (rt : Runtime) (env : Env) (l : LineBreaker F) (token : List Rune)
    {a : AState} (h : SeqsAll S a) (hs : HasSeqs rt env [token] S) : Leaves S a (boxNodesL rt env l token a) (fun p => p.2) := by
  unfold boxNodesL
  cases e : Ansi.stripToken env (token ++ rt.spare token) ⟨0, token.length⟩ with
  | error x => exact ⟨List.prefix_refl _, h, fun p hp => by cases hp⟩
  | ok r =>
    refine strippedLoopL_leaves env l r.2 r.1 h (fun t ht => ?_)
    have := hs token (by simp) _ ⟨r.1, r.2, e, rfl⟩ _ (List.mem_map.mpr ⟨t, ht, rfl⟩)
    exact ⟨Or.inr this.1, Or.inr this.2⟩

theorem tokensLoopL_leaves {S : List (List Rune)} (rt : Runtime) (env : Env) (l : LineBreaker F) (tokens : List (List Rune))
    {a : AState} (h : SeqsAll S a) (hs : HasSeqs rt env tokens S) : Leaves S a (tokensLoopL rt env l tokens a) (fun p => p.2) := by
  induction tokens generalizing a with
  | nil => exact ⟨List.prefix_refl _, h, fun p hp => by cases hp; rfl⟩
  | cons t ts ih =>
    have k := boxNodesL_leaves rt env l t h (fun x hx => hs x (by simp at hx; simp [hx]))
    have hts : HasSeqs rt env ts S := fun x hx => hs x (by simp [hx])
    cases ts with
    | nil =>
      simp only [tokensLoopL]
      unfold Left.andThen
      cases e : (boxNodesL rt env l t a).res with
      | error x => exact ⟨k.grow, k.known, fun p hp => by cases hp⟩
      | ok p =>
        have := k.ok p e
        exact ⟨this ▸ k.grow, this ▸ k.known, fun p hp => by cases hp; rfl⟩
    | cons u us =>
      simp only [tokensLoopL]
      unfold Left.andThen
      cases e : (boxNodesL rt env l t a).res with
      | error x => exact ⟨k.grow, k.known, fun p hp => by cases hp⟩
      | ok p =>
        have ep := k.ok p e
        have kk : SeqsAll S p.2 := ep ▸ k.known
        have k2 := ih kk hts
        have g : a.map Attribute.text <+: (tokensLoopL rt env l (u :: us) p.2).attrs.map Attribute.text :=
          (ep ▸ k.grow : a.map Attribute.text <+: p.2.map Attribute.text).trans k2.grow
        simp only
        cases e2 : (tokensLoopL rt env l (u :: us) p.2).res with
        | error x => exact ⟨g, k2.known, fun p hp => by cases hp⟩
        | ok q =>
          have := k2.ok q e2
          exact ⟨this ▸ g, this ▸ k2.known, fun p hp => by cases hp; rfl⟩

/-! ## Calls -/

theorem SeqsAll.mono {S T : List (List Rune)} {a : AState} (h : SeqsAll S a) (hst : ∀ s ∈ S, s ∈ T) : SeqsAll T a :=
  fun x hx => ⟨(h x hx).1.imp_right (hst _), (h x hx).2.imp_right (hst _)⟩

/-- The result of `alignL`. -/
theorem alignL_result (rt : Runtime) (env : Env) (l : LineBreaker F) (tokens : List (List Rune)) (maxWidth : F) :
    (alignL rt env l tokens maxWidth).2 = (leftAlignUniform rt env l tokens maxWidth).map Prod.fst := by
  unfold alignL leftAlignUniform leftAlignedNodes
  simp only [tokensLoopL_res]
  cases tokensLoop rt env l tokens l.attrList with
  | error e => rfl
  | ok p =>
    simp only [ok_bind]
    cases breakPoints rt l.toOptions p.1 (l.scale maxWidth) with
    | error e => rfl
    | ok b =>
      simp only [ok_bind]
      cases b with
      | none => rfl
      | some chain =>
        simp only
        cases render l.toOptions p.2 p.1 chain <;> rfl

/-- There are finitely many sequences. -/
theorem some_seqs (rt : Runtime) (env : Env) (l : LineBreaker F) (tokens : List (List Rune)) :
    ∃ S : List (List Rune), SeqsAll S l.attrList ∧ HasSeqs rt env tokens S := by
  let found (t : List Rune) : List (List Rune) := match Ansi.stripToken env (t ++ rt.spare t) ⟨0, t.length⟩ with
    | .error _ => []
    | .ok r => r.1.flatMap (fun t => [fieldRunes r.2 t.start, fieldRunes r.2 t.stop])
  refine ⟨l.attrList.flatMap (fun a => [a.start, a.stop]) ++ tokens.flatMap found, ?_, ?_⟩
  · intro a ha
    constructor <;> right <;> rw [List.mem_append, List.mem_flatMap] <;> exact Or.inl ⟨a, ha, by simp⟩
  · rintro t ht xs ⟨toks, mem, e, rfl⟩ x hx
    obtain ⟨y, hy, rfl⟩ := List.mem_map.mp hx
    have : ∀ z ∈ [fieldRunes mem y.start, fieldRunes mem y.stop], z ∈ found t := by
      intro z hz
      simp only [found, e]
      exact List.mem_flatMap.mpr ⟨y, hy, hz⟩
    constructor <;> rw [List.mem_append] <;> right <;> rw [List.mem_flatMap] <;> exact ⟨t, ht, this _ (by simp)⟩

/-- The line breaker after a call that returns. -/
theorem alignL_after (rt : Runtime) (env : Env) (l : LineBreaker F) (tokens : List (List Rune)) (maxWidth : F)
    {r : Option (List (List Rune))} {l' : LineBreaker F} (h : leftAlignUniform rt env l tokens maxWidth = .ok (r, l')) :
    (alignL rt env l tokens maxWidth).1 = l' := by
  obtain ⟨S, h1, h2⟩ := some_seqs rt env l tokens
  have k := tokensLoopL_leaves rt env l tokens h1 h2
  unfold leftAlignUniform leftAlignedNodes at h
  unfold alignL
  cases e : tokensLoop rt env l tokens l.attrList with
  | error x => rw [e] at h; cases h
  | ok p =>
    have e' := k.ok p (by rw [tokensLoopL_res]; exact e)
    simp only [e, ok_bind] at h
    cases e2 : breakPoints rt l.toOptions p.1 (l.scale maxWidth) with
    | error e => simp only [e2] at h; cases h
    | ok c =>
      simp only [e2, ok_bind] at h
      simp only [e']
      cases c with
      | none => cases h; rfl
      | some chain =>
        simp only at h
        cases e3 : render l.toOptions p.2 p.1 chain with
        | error e => rw [e3] at h; cases h
        | ok ls => simp only [e3, ok_bind] at h; cases h; rfl

/-- Line breakers after any calls, panics included. -/
theorem survived_twin {env : Env} {dict : Dictionary} {opts : List (Opt F)} {l : LineBreaker F} {seqs : List (List Rune)}
    (h : Survived env dict opts l seqs) : Twin l (new env dict opts) ∧ SeqsAll seqs l.attrList := by
  induction h with
  | new => exact ⟨Twin.refl _, fun a h => by cases h⟩
  | @call l seqs seqs' rt tokens maxWidth _ hs ih =>
    refine ⟨⟨ih.1.options, ih.1.space, ih.1.hyphen⟩, ?_⟩
    have k := tokensLoopL_leaves rt env l tokens (S := seqs ++ seqs') (ih.2.mono (fun s hs => by simp [hs]))
      (fun t ht xs hx x hxx => by have := hs t ht xs hx x hxx; simp [this.1, this.2])
    exact k.known

end Verif.Proofs.LB
