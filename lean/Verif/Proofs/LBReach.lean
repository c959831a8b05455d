import Verif.Proofs.LBAnyPenalty
import Verif.Proofs.LBHistory

/-! # Which places are reached, for any words and any widths -/

set_option linter.unusedSectionVars false
set_option linter.unusedSimpArgs false

namespace Verif.Proofs.LB
open Verif.Go Verif.Model Verif.Model.LB Verif.Spec Verif.Spec.Ansi Verif.Spec.LB Verif.Props

variable {F : Type} [Arith F]

/-! ## Nodes and tolerance -/

/-- A line breaker with another tolerance. -/
def eased (l : LineBreaker F) (x : F) : LineBreaker F := { l with tolerance := x }

section
variable (l : LineBreaker F) (x : F)

theorem eased_softLoop (parts : List (List Rune)) (s : TokState) : softLoop (eased l x) parts s = softLoop l parts s := by
  induction parts generalizing s with
  | nil => rfl
  | cons p ps ih =>
    unfold softLoop
    simp only [ih]
    rfl

theorem eased_wordNodes (word : List Rune) (s : TokState) : wordNodes (eased l x) word s = wordNodes l word s := by
  unfold wordNodes
  simp only [eased_softLoop]
  rfl

theorem eased_wordsLoop (words : List (List Rune)) (s : TokState) : wordsLoop (eased l x) words s = wordsLoop l words s := by
  induction words generalizing s with
  | nil => rfl
  | cons w ws ih =>
    unfold wordsLoop
    simp only [ih, eased_wordNodes]

theorem eased_partNodes (env : Env) (part : List Rune) (s : TokState) : partNodes env (eased l x) part s = partNodes env l part s := by
  unfold partNodes
  simp only [eased_wordsLoop]
  rfl

theorem eased_partsLoop (env : Env) (parts : List (List Rune)) (s : TokState) :
    partsLoop env (eased l x) parts s = partsLoop env l parts s := by
  induction parts generalizing s with
  | nil => rfl
  | cons w ws ih =>
    unfold partsLoop
    simp only [ih, eased_partNodes]

theorem eased_textNodes (env : Env) (texts : List (List Rune)) : textNodes env (eased l x) texts = textNodes env l texts := by
  induction texts with
  | nil => rfl
  | cons w ws ih =>
    unfold textNodes
    simp only [ih, eased_partsLoop]
    rfl

end

/-- Nodes of words, of which the texts give the same nodes. -/
theorem tokensLoop_two {rt rt' : Runtime} {env : Env} {l l' : LineBreaker F} (hg : gapNodes l = gapNodes l') {ts ts' : List (List Rune)}
    (h : List.Forall₂ (fun t t' => ∀ a a', bareNodes (boxNodes rt env l t a) = bareNodes (boxNodes rt' env l' t' a')) ts ts') (a a' : AState) :
    bareNodes (tokensLoop rt env l ts a) = bareNodes (tokensLoop rt' env l' ts' a') := by
  induction h generalizing a a' with
  | nil => rfl
  | @cons t t' ts ts' h ht ih =>
    have hb := h a a'
    cases ht with
    | nil =>
      simp only [tokensLoop]
      exact bareNodes_seq (f := fun p => .ok (endNodes, p.2)) (f' := fun p => .ok (endNodes, p.2)) hb (fun _ _ => rfl)
    | @cons u u' us us' hu hus =>
      simp only [tokensLoop]
      have := bareNodes_seq (f := fun p => do let q ← tokensLoop rt env l (u :: us) p.2; return (gapNodes l ++ q.1, q.2))
        (f' := fun p => do let q ← tokensLoop rt' env l' (u' :: us') p.2; return (gapNodes l' ++ q.1, q.2)) hb (by
          intro p p'
          exact bareNodes_seq (r := .ok (gapNodes l, p.2)) (r' := .ok (gapNodes l', p'.2)) (f := fun _ => tokensLoop rt env l (u :: us) p.2)
            (f' := fun _ => tokensLoop rt' env l' (u' :: us') p'.2) (by rw [hg]; rfl) (fun _ _ => ih p.2 p'.2))
      have e : ∀ (rt : Runtime) (k : LineBreaker F) (w : List Rune) (ws : List (List Rune)) (b : AState),
          (do let p ← boxNodes rt env k w b
              let q ← (do let q ← tokensLoop rt env k ws p.2; return (gapNodes k ++ q.1, q.2) : Res _)
              return (p.1 ++ q.1, q.2) : Res (List (Node F) × AState)) =
          (do let p ← boxNodes rt env k w b
              let q ← tokensLoop rt env k ws p.2
              return (p.1 ++ gapNodes k ++ q.1, q.2)) := by
        intro rt k w ws b
        cases boxNodes rt env k w b with
        | error e => rfl
        | ok p =>
          simp only [ok_bind]
          cases tokensLoop rt env k ws p.2 with
          | error e => rfl
          | ok q => simp only [ok_bind, pure_eq_ok, List.append_assoc]
      rw [e, e] at this
      exact this

/-! ## Penalties of all nodes -/

/-- All nodes of a result satisfy a predicate. -/
def AllR {α : Type} (P : Node F → Prop) (r : Res (List (Node F) × α)) : Prop := ∀ p, r = .ok p → ∀ n ∈ p.1, P n

section
variable {P : Node F → Prop} {l : LineBreaker F}

theorem all_seq {α β : Type} {r : Res (List (Node F) × α)} {f : α → Res (List (Node F) × β)} (h : AllR P r)
    (g : ∀ a, AllR P (f a)) : AllR P (do let p ← r; let q ← f p.2; return (p.1 ++ q.1, q.2)) := by
  intro q hq n hn
  cases hr : r with
  | error e => rw [hr] at hq; cases hq
  | ok p =>
    rw [hr] at hq
    simp only [ok_bind] at hq
    cases hf : f p.2 with
    | error e => rw [hf] at hq; cases hq
    | ok p' =>
      rw [hf] at hq
      cases hq
      rcases List.mem_append.mp hn with hn | hn
      · exact h p hr n hn
      · exact g _ _ hf n hn

theorem all_bind {α β : Type} {r : Res α} {f : α → Res (List (Node F) × β)} (g : ∀ a, AllR P (f a)) : AllR P (r >>= f) := by
  cases r with
  | error e => intro q hq; cases hq
  | ok a => exact g a

theorem all_ok {α : Type} {p : List (Node F) × α} (h : ∀ n ∈ p.1, P n) : AllR P (.ok p) := by
  intro q hq
  cases hq
  exact h

variable (hg : ∀ a b c : F, P (newGlue a b c)) (hb : ∀ (w : F) t a, P (newBox w t a))
  (hp : ∀ (w : F) b, ∀ p ∈ [infinity, zero, l.hyphenPenalty, l.punctuationPenalty, l.hardHyphenPenalty, minusInfinity], P (newPenalty w p b))
include hg hb hp

theorem all_mark (p : F) (h : p ∈ [l.punctuationPenalty, l.hardHyphenPenalty]) (t : List Rune) (s : TokState) :
    ∀ n ∈ (markNodes l p t s).1, P n := by
  intro n hn
  simp only [markNodes, List.mem_cons, List.not_mem_nil, or_false] at hn
  rcases hn with rfl | rfl | rfl | rfl | rfl
  · exact hp _ _ _ (by simp)
  · exact hg _ _ _
  · exact hb _ _ _
  · refine hp _ _ _ ?_
    simp only [List.mem_cons, List.not_mem_nil, or_false] at h ⊢
    tauto
  · exact hg _ _ _

theorem all_hyphen : ∀ n ∈ pushHyphen l, P n := by
  intro n hn
  unfold pushHyphen at hn
  split at hn
  · simp only [List.mem_cons, List.not_mem_nil, or_false] at hn
    rcases hn with rfl | rfl | rfl | rfl
    · exact hp _ _ _ (by simp)
    · exact hg _ _ _
    · exact hp _ _ _ (by simp)
    · exact hg _ _ _
  · simp only [List.mem_cons, List.not_mem_nil, or_false] at hn
    subst hn
    exact hp _ _ _ (by simp)

theorem all_soft (parts : List (List Rune)) (s : TokState) : ∀ n ∈ (softLoop l parts s).1, P n := by
  induction parts generalizing s with
  | nil => intro n hn; cases hn
  | cons p ps ih =>
    intro n hn
    unfold softLoop at hn
    simp only [List.mem_cons, List.mem_append] at hn
    rcases hn with rfl | hn | hn
    · exact hb _ _ _
    · exact all_hyphen hg hb hp n hn
    · exact ih _ n hn

theorem all_word (word : List Rune) (s : TokState) : AllR P (wordNodes l word s) := by
  unfold wordNodes
  split
  · exact all_ok (all_mark hg hb hp _ (by simp) _ _)
  · refine all_bind (fun hyph => all_bind (fun parts => all_bind (fun last => all_ok ?_)))
    intro n hn
    rcases List.mem_append.mp hn with hn | hn
    · exact all_soft hg hb hp _ _ n hn
    · rw [List.mem_singleton.mp hn]; exact hb _ _ _

theorem all_words (words : List (List Rune)) (s : TokState) : AllR P (wordsLoop l words s) := by
  induction words generalizing s with
  | nil => exact all_ok (by simp)
  | cons w ws ih =>
    unfold wordsLoop
    exact all_seq (all_word hg hb hp w s) ih

theorem all_part (env : Env) (part : List Rune) (s : TokState) : AllR P (partNodes env l part s) := by
  unfold partNodes
  split
  · exact all_ok (all_mark hg hb hp _ (by simp) _ _)
  · split
    · exact all_ok (by intro n hn; rw [List.mem_singleton.mp hn]; exact hb _ _ _)
    · exact all_bind (fun words => all_words hg hb hp words s)

theorem all_parts (env : Env) (parts : List (List Rune)) (s : TokState) : AllR P (partsLoop env l parts s) := by
  induction parts generalizing s with
  | nil => exact all_ok (by simp)
  | cons w ws ih =>
    unfold partsLoop
    exact all_seq (all_part hg hb hp env w s) ih

theorem all_stripped (env : Env) (mem : List Rune) (toks : List Ansi.StrippedToken) (attrs : AState) :
    AllR P (strippedLoop env l mem toks attrs) := by
  induction toks generalizing attrs with
  | nil => exact all_ok (by simp)
  | cons t ts ih =>
    unfold strippedLoop
    exact all_bind (fun parts => all_seq (f := fun s => strippedLoop env l mem ts s.close) (all_parts hg hb hp env parts _)
      (fun s => ih s.close))

theorem all_tokens (rt : Runtime) (env : Env) (tokens : List (List Rune)) (attrs : AState) :
    AllR P (tokensLoop rt env l tokens attrs) := by
  have hbox : ∀ t a, AllR P (boxNodes rt env l t a) := by
    intro t a
    unfold boxNodes
    exact all_bind (fun r => all_stripped hg hb hp env r.2 r.1 a)
  induction tokens generalizing attrs with
  | nil => exact all_ok (by simp)
  | cons t ts ih =>
    cases ts with
    | nil =>
      unfold tokensLoop
      have : AllR P (do let p ← boxNodes rt env l t attrs; let q ← (fun a => (.ok (endNodes, a) : Res _)) p.2; return (p.1 ++ q.1, q.2)) :=
        all_seq (hbox t attrs) (fun a => all_ok (by
          intro n hn
          simp only [endNodes, List.mem_cons, List.not_mem_nil, or_false] at hn
          rcases hn with rfl | rfl
          · exact hg _ _ _
          · exact hp _ _ _ (by simp)))
      exact this
    | cons t' ts' =>
      have hgap : ∀ n ∈ gapNodes l, P n := by
        intro n hn
        simp only [gapNodes, List.mem_cons, List.not_mem_nil, or_false] at hn
        rcases hn with rfl | rfl | rfl
        · exact hg _ _ _
        · exact hp _ _ _ (by simp)
        · exact hg _ _ _
      rw [tokensLoop]
      · intro q hq n hn
        cases h1 : boxNodes rt env l t attrs with
        | error e => rw [h1] at hq; cases hq
        | ok p =>
          rw [h1] at hq
          simp only [ok_bind] at hq
          cases h2 : tokensLoop rt env l (t' :: ts') p.2 with
          | error e => rw [h2] at hq; cases hq
          | ok p' =>
            rw [h2] at hq
            cases hq
            simp only [List.mem_append] at hn
            rcases hn with (hn | hn) | hn
            · exact hbox _ _ _ h1 n hn
            · exact hgap n hn
            · exact ih _ _ h2 n hn
      · simp

end

/-- The last node forces a break. -/
theorem tokensLoop_last {rt : Runtime} {env : Env} {l : LineBreaker F} {tokens : List (List Rune)} (hne : tokens ≠ []) {attrs : AState}
    {p : List (Node F) × AState} (h : tokensLoop rt env l tokens attrs = .ok p) :
    ∃ u, p.1 = u ++ [newPenalty zero minusInfinity true] := by
  induction tokens generalizing attrs p with
  | nil => exact absurd rfl hne
  | cons t ts ih =>
    cases ts with
    | nil =>
      unfold tokensLoop at h
      cases h1 : boxNodes rt env l t attrs with
      | error e => rw [h1] at h; cases h
      | ok q =>
        rw [h1] at h
        cases h
        exact ⟨q.1 ++ [newGlue zero infinity zero], by simp [endNodes]⟩
    | cons t' ts' =>
      rw [tokensLoop] at h
      · cases h1 : boxNodes rt env l t attrs with
        | error e => rw [h1] at h; cases h
        | ok q =>
          rw [h1] at h
          simp only [ok_bind] at h
          cases h2 : tokensLoop rt env l (t' :: ts') q.2 with
          | error e => rw [h2] at h; cases h
          | ok p' =>
            rw [h2] at h
            cases h
            obtain ⟨u, hu⟩ := ih (by simp) h2
            exact ⟨q.1 ++ gapNodes l ++ u, by simp [hu]⟩
      · simp

/-! ## Active break points -/

section
variable [Laws F]

/-- Break points at nodes, without demerits. -/
def Live (N : List (Node F)) (act : List (BreakPoint F)) : Prop := ∀ a ∈ act, a.position < N.length ∧ a.totalDemerits = zero

/-- The places of the first list are in the second one. -/
def Covers (act act' : List (BreakPoint F)) : Prop := ∀ a ∈ act, ∃ a' ∈ act', a'.position = a.position ∧ a'.totals = a.totals

theorem ctx_tame {o : Options F} (hu : Costs o) {N : List (Node F)} {ideal : F} {sum : Sums F} {i : Nat} {n : Node F} (hn : Mild n)
    {act : List (BreakPoint F)} (ha : Live N act) : ∀ a ∈ act, (⟨o, N, ideal, sum, i, n⟩ : Ctx F).feas a = true →
      (⟨o, N, ideal, sum, i, n⟩ : Ctx F).Tame a := by
  intro a hm hf
  have hf' := hf
  unfold Ctx.feas at hf'
  rw [Bool.and_eq_true] at hf'
  have hix : index N (a.position : Int) = .ok (N[a.position]'(ha a hm).1) := by
    unfold index
    rw [if_neg (by omega)]
    simp [(ha a hm).1]
  obtain ⟨d, h1, h2⟩ := costs_cheap hu (ha a hm).2 hix _ hn hf'.1 hf'.2
  have h3 := demeritsAndClass_eq (⟨o, N, ideal, sum, i, n⟩ : Ctx F) a (ha a hm).1
  have h4 : demeritsAndClass o N a n ((⟨o, N, ideal, sum, i, n⟩ : Ctx F).ratio a) = .ok (d, _) := h1
  rw [h4] at h3
  have : d = (⟨o, N, ideal, sum, i, n⟩ : Ctx F).dem a := congrArg Prod.fst (Except.ok.inj h3)
  rw [this] at h2
  exact h2

theorem live_mainLoop (rt : Runtime) {o : Options F} (hu : Costs o) {N : List (Node F)} {ideal : F} {sum : Sums F} {i : Nat} (hi : i < N.length)
    {n : Node F} (hn : Mild n) {act : List (BreakPoint F)} (ha : Live N act) :
    ∃ res, mainLoop rt o N ideal sum i n act = .ok res ∧ Live N res ∧
      (n.isForcedBreak = true → ∀ b ∈ res, b.previous ≠ []) := by
  obtain ⟨new, h1, h2⟩ := mainLoop_mem rt (⟨o, N, ideal, sum, i, n⟩ : Ctx F) act (fun a h => (ha a h).1)
  refine ⟨_, h1, fun b hb => ?_, fun hf b hb => ?_⟩
  · rcases List.mem_append.mp hb with hb | hb
    · exact ha b (List.mem_filter.mp hb).1
    · obtain ⟨a, h3, h4, rfl⟩ := h2 b hb
      exact ⟨hi, (ha a h3).2⟩
  · rcases List.mem_append.mp hb with hb | hb
    · have := (List.mem_filter.mp hb).2
      unfold Ctx.keep at this
      simp [hf] at this
    · obtain ⟨a, h3, h4, rfl⟩ := h2 b hb
      simp [newBreak]

theorem covers_mainLoop (rt : Runtime) {rt' : Runtime} (hw : Walks rt') {o : Options F} {x : F} (hu : Costs o)
    (hu' : Costs { o with tolerance := x }) (hle : ∀ r, Arith.le r o.tolerance = true → Arith.le r x = true) {N : List (Node F)} {ideal : F} {sum : Sums F} {i : Nat}
    {n : Node F} (hn : Mild n) {act act' : List (BreakPoint F)} (ha : Live N act) (ha' : Live N act') (hc : Covers act act')
    {res res' : List (BreakPoint F)} (h : mainLoop rt o N ideal sum i n act = .ok res)
    (h' : mainLoop rt' { o with tolerance := x } N ideal sum i n act' = .ok res') : Covers res res' := by
  obtain ⟨new, h1, h2⟩ := mainLoop_mem rt (⟨o, N, ideal, sum, i, n⟩ : Ctx F) act (fun a h => (ha a h).1)
  have h3 := mainLoop_tame rt' (⟨{ o with tolerance := x }, N, ideal, sum, i, n⟩ : Ctx F) act' (fun a h => (ha' a h).1)
    (fun a h => (ha' a h).2) (ctx_tame hu' hn ha')
  simp only at h1 h3
  rw [h] at h1
  rw [h'] at h3
  cases h1
  cases h3
  intro b hb
  rcases List.mem_append.mp hb with hb | hb
  · obtain ⟨hb1, hb2⟩ := List.mem_filter.mp hb
    obtain ⟨a', c1, c2, c3⟩ := hc b hb1
    refine ⟨a', List.mem_append_left _ (List.mem_filter.mpr ⟨c1, ?_⟩), c2, c3⟩
    unfold Ctx.keep Ctx.ratio at hb2 ⊢
    simp only at hb2 ⊢
    rw [c3]
    exact hb2
  · obtain ⟨a, k1, k2, rfl⟩ := h2 b hb
    obtain ⟨a', c1, c2, c3⟩ := hc a k1
    have hf : (⟨{ o with tolerance := x }, N, ideal, sum, i, n⟩ : Ctx F).feas a' = true := by
      unfold Ctx.feas Ctx.ratio at k2 ⊢
      simp only [Bool.and_eq_true] at k2 ⊢
      rw [c3]
      exact ⟨k2.1, hle _ k2.2⟩
    obtain ⟨c, hcd⟩ : ∃ c, c = (⟨{ o with tolerance := x }, N, ideal, sum, i, n⟩ : Ctx F).cls a' := ⟨_, rfl⟩
    have hp : ∃ d, (⟨{ o with tolerance := x }, N, ideal, sum, i, n⟩ : Ctx F).pick act' c = some d := by
      cases e : (⟨{ o with tolerance := x }, N, ideal, sum, i, n⟩ : Ctx F).pick act' c with
      | some d => exact ⟨d, rfl⟩
      | none =>
        unfold Ctx.pick at e
        rw [List.find?_eq_none] at e
        exact absurd (by simp [hf, hcd]) (e a' c1)
    obtain ⟨d, hd⟩ := hp
    refine ⟨newBreak i c (sumFromNode N sum i) d, List.mem_append_right _ ?_, rfl, rfl⟩
    rw [if_neg (List.ne_nil_of_mem c1), List.mem_filterMap]
    exact ⟨c, hw _ _ _, by rw [hd]; rfl⟩

theorem live_breakLoop (rt : Runtime) {o : Options F} (hu : Costs o) {N : List (Node F)} {ideal : F} (M : List (Node F))
    (hm : ∀ n ∈ M, Mild n) (prev : Option (Node F)) (i : Nat) (hi : i + M.length = N.length) (sum : Sums F)
    (act : List (BreakPoint F)) (ha : Live N act) (hne : M ≠ []) (hlast : M.getLast? = some (newPenalty zero minusInfinity true)) :
    ∃ res, breakLoop rt o N ideal prev M i sum act = .ok res ∧ Live N res ∧ ∀ b ∈ res, b.previous ≠ [] := by
  induction M generalizing prev i sum act with
  | nil => exact absurd rfl hne
  | cons n M ih =>
    have hilt : i < N.length := by simp at hi; omega
    have hi' : i + 1 + M.length = N.length := by simp at hi; omega
    have hm' : ∀ n ∈ M, Mild n := fun k hk => hm k (List.mem_cons_of_mem _ hk)
    by_cases hM : M = []
    · subst hM
      rw [List.getLast?_singleton] at hlast
      cases hlast
      have e1 : Arith.eq (minusInfinity : F) infinity = false := by
        unfold minusInfinity infinity
        rw [eq_small (F := F) (-10000) 10000 (by decide) (by decide)]; rfl
      have e2 : (newPenalty zero minusInfinity true : Node F).isForcedBreak = true := by
        unfold Node.isForcedBreak newPenalty minusInfinity
        rw [eq_small (F := F) (-10000) (-10000) (by decide) (by decide)]; rfl
      obtain ⟨res, h1, h2, h3⟩ := live_mainLoop rt hu hilt (hm _ List.mem_cons_self) ha (ideal := ideal) (sum := sum)
      refine ⟨res, ?_, h2, h3 e2⟩
      unfold breakLoop
      have e3 : (newPenalty zero minusInfinity true : Node F).kind = .penalty := rfl
      have e4 : (newPenalty zero minusInfinity true : Node F).penalty = minusInfinity := rfl
      simp only [e3, e4, e1, h1, ok_bind]
      simp [breakLoop]
    · have hl' : M.getLast? = some (newPenalty zero minusInfinity true) := by
        rw [← hlast]
        cases M with
        | nil => exact absurd rfl hM
        | cons a M => simp
      have step : ∀ (p : Prop) [Decidable p] (s' : Sums F), ∃ res,
          (do let act ← if p then mainLoop rt o N ideal sum i n act else .ok act
              breakLoop rt o N ideal (some n) M (i + 1) s' act) = .ok res ∧ Live N res ∧ ∀ b ∈ res, b.previous ≠ [] := by
        intro p _ s'
        by_cases hp : p
        · obtain ⟨res, h1, h2, _⟩ := live_mainLoop rt hu hilt (hm _ List.mem_cons_self) ha (ideal := ideal) (sum := sum)
          rw [if_pos hp, h1]
          exact ih hm' _ _ hi' _ _ h2 hM hl'
        · rw [if_neg hp]
          exact ih hm' _ _ hi' _ _ ha hM hl'
      unfold breakLoop
      cases hk : n.kind with
      | box => exact ih hm' _ _ hi' _ _ ha hM hl'
      | glue => exact step _ _
      | penalty => exact step _ _

theorem covers_breakLoop (rt : Runtime) {rt' : Runtime} (hw : Walks rt') {o : Options F} {x : F} (hu : Costs o)
    (hu' : Costs { o with tolerance := x }) (hle : ∀ r, Arith.le r o.tolerance = true → Arith.le r x = true) {N : List (Node F)} {ideal : F} (M : List (Node F))
    (hm : ∀ n ∈ M, Mild n) (prev : Option (Node F)) (i : Nat) (hi : i + M.length = N.length) (sum : Sums F)
    (act act' : List (BreakPoint F)) (ha : Live N act) (ha' : Live N act') (hc : Covers act act') {res res' : List (BreakPoint F)}
    (h : breakLoop rt o N ideal prev M i sum act = .ok res)
    (h' : breakLoop rt' { o with tolerance := x } N ideal prev M i sum act' = .ok res') : Covers res res' := by
  induction M generalizing prev i sum act act' with
  | nil =>
    unfold breakLoop at h h'
    cases h
    cases h'
    exact hc
  | cons n M ih =>
    have hilt : i < N.length := by simp at hi; omega
    have hi' : i + 1 + M.length = N.length := by simp at hi; omega
    have hm' : ∀ n ∈ M, Mild n := fun k hk => hm k (List.mem_cons_of_mem _ hk)
    have step : ∀ (p : Prop) [Decidable p] (s' : Sums F),
        (do let act ← if p then mainLoop rt o N ideal sum i n act else .ok act
            breakLoop rt o N ideal (some n) M (i + 1) s' act) = .ok res →
        (do let act ← if p then mainLoop rt' { o with tolerance := x } N ideal sum i n act' else .ok act'
            breakLoop rt' { o with tolerance := x } N ideal (some n) M (i + 1) s' act) = .ok res' → Covers res res' := by
      intro p _ s' g g'
      by_cases hp : p
      · obtain ⟨r1, h1, h2, _⟩ := live_mainLoop rt hu hilt (hm _ List.mem_cons_self) ha (ideal := ideal) (sum := sum)
        obtain ⟨r1', h1', h2', _⟩ := live_mainLoop rt' hu' hilt (hm _ List.mem_cons_self) ha' (ideal := ideal) (sum := sum)
        rw [if_pos hp, h1] at g
        rw [if_pos hp, h1'] at g'
        exact ih hm' _ _ hi' _ _ _ h2 h2' (covers_mainLoop rt hw hu hu' hle (hm _ List.mem_cons_self) ha ha' hc h1 h1') g g'
      · rw [if_neg hp] at g g'
        exact ih hm' _ _ hi' _ _ _ ha ha' hc g g'
    unfold breakLoop at h h'
    cases hk : n.kind with
    | box =>
      rw [hk] at h h'
      exact ih hm' _ _ hi' _ _ _ ha ha' hc h h'
    | glue =>
      rw [hk] at h h'
      exact step _ _ h h'
    | penalty =>
      rw [hk] at h h'
      exact step _ _ h h'

theorem start_before (u : List (Node F)) (k : Nat) :
    findStartNode (u ++ [newPenalty zero minusInfinity true]) k ≤ k + u.length := by
  have e2 : Arith.eq (minusInfinity : F) minusInfinity = true := by
    unfold minusInfinity
    rw [eq_small (F := F) (-10000) (-10000) (by decide) (by decide)]; rfl
  induction u generalizing k with
  | nil => simp [findStartNode, newPenalty, e2]
  | cons n u ih =>
    rw [List.cons_append]
    unfold findStartNode
    have h1 := ih k
    have h2 := ih (k + 1)
    rw [List.length_cons]
    split
    · omega
    · split <;> omega
    · omega

theorem best_mem (bs : List (BreakPoint F)) (b : BreakPoint F) : findBestBreak bs b = b ∨ findBestBreak bs b ∈ bs := by
  induction bs generalizing b with
  | nil => exact Or.inl rfl
  | cons a bs ih =>
    unfold findBestBreak
    split
    · rcases ih a with h | h
      · exact Or.inr (by rw [h]; simp)
      · exact Or.inr (List.mem_cons_of_mem _ h)
    · rcases ih b with h | h
      · exact Or.inl h
      · exact Or.inr (List.mem_cons_of_mem _ h)

/-- A result of breakPoints, from the active break points that are left. -/
theorem breakPoints_none {rt : Runtime} {o : Options F} (hu : Costs o) {u : List (Node F)} {ideal : F} {N : List (Node F)}
    (hN : N = u ++ [newPenalty zero minusInfinity true]) (hm : ∀ n ∈ N, Mild n) :
    ∃ res, breakLoop rt o N ideal (if findStartNode N 0 = 0 then none else N[findStartNode N 0 - 1]?) (N.drop (findStartNode N 0))
        (findStartNode N 0) Sums.zero [rootPoint] = .ok res ∧
      ((res = [] ∧ breakPoints rt o N ideal = .ok none) ∨ (res ≠ [] ∧ ∃ chain, breakPoints rt o N ideal = .ok (some chain))) := by
  have hs : findStartNode N 0 < N.length := by
    have := start_before u 0
    rw [← hN] at this
    rw [show N.length = u.length + 1 by rw [hN]; simp]
    omega
  have hd : N.drop (findStartNode N 0) ≠ [] := by
    intro e
    have := congrArg List.length e
    simp at this
    omega
  obtain ⟨res, h1, h2, h3⟩ := live_breakLoop rt hu (N := N) (ideal := ideal) (N.drop (findStartNode N 0))
    (fun n hn => hm n (List.mem_of_mem_drop hn)) (if findStartNode N 0 = 0 then none else N[findStartNode N 0 - 1]?) (findStartNode N 0)
    (by simp; omega) Sums.zero [rootPoint] (fun a ha => by rw [List.mem_singleton.mp ha]; exact ⟨by show 0 < _; omega, rfl⟩) hd
    (by rw [List.getLast?_drop, if_neg (by omega), hN]; simp)
  refine ⟨res, h1, ?_⟩
  unfold breakPoints
  simp only [h1, ok_bind, pure_eq_ok]
  cases res with
  | nil => exact Or.inl ⟨rfl, rfl⟩
  | cons a res =>
    refine Or.inr ⟨by simp, ?_⟩
    rw [if_pos (by simp)]
    have hb : findBestBreak (a :: res) noBreak ∈ a :: res := by
      unfold findBestBreak
      rw [if_pos]
      · rcases best_mem res a with h | h
        · rw [h]; simp
        · exact List.mem_cons_of_mem _ h
      · show Arith.lt a.totalDemerits Arith.maxFloat = true
        rw [(h2 a (by simp)).2]
        exact Laws.zero_lt_max
    unfold reverseBreakPoints
    rw [if_neg (h3 _ hb)]
    exact ⟨_, rfl⟩

/-- **More tolerance, another walk of the map and another history** do not make a paragraph impossible to set, for any words,
widths and split functions. -/
theorem refused_mono {rt rt' : Runtime} (hw : Walks rt') {env : Env} {l l' : LineBreaker F} {x : F}
    (hl : Twin l' (eased l x)) (hu : Costs l.toOptions) (hx : Arith.le x (Arith.ofInt 50) = true)
    (hle : ∀ r, Arith.le r l.tolerance = true → Arith.le r x = true) (hp : Within l.hyphenPenalty 10000)
    (hpu : l.punctuationPenalty = Arith.ofInt 400) (hh : l.hardHyphenPenalty = Arith.ofInt 200)
    {ts ts' : List (List Rune)} {tks tks' : List (List Span)}
    (hf : List.Forall₂ (Found rt env) ts tks) (hf' : List.Forall₂ (Found rt' env) ts' tks')
    (ht : tks.map (List.map Span.text) = tks'.map (List.map Span.text)) (maxWidth : F)
    (h : ∃ m, leftAlignUniform rt' env l' ts' maxWidth = .ok (none, m)) :
    ∃ m, leftAlignUniform rt env l ts maxWidth = .ok (none, m) := by
  by_cases hts : ts = []
  · subst hts
    refine ⟨l, ?_⟩
    unfold leftAlignUniform leftAlignedNodes tokensLoop
    have h : (findBestBreak [rootPoint] noBreak : BreakPoint F).previous = [] := by
      simp only [findBestBreak]
      split <;> rfl
    simp [ok_bind, breakPoints, findStartNode, breakLoop, reverseBreakPoints, h]
  have hsame : List.Forall₂ (fun t t' => ∀ a a', bareNodes (boxNodes rt env l t a) = bareNodes (boxNodes rt' env l' t' a')) ts ts' := by
    clear hts h
    induction hf generalizing ts' tks' with
    | nil =>
      cases hf' with
      | nil => exact .nil
      | cons _ _ => simp at ht
    | cons h1 _ ih =>
      cases hf' with
      | nil => simp at ht
      | cons h1' hr' =>
        simp only [List.map_cons, List.cons.injEq] at ht
        refine .cons (fun a a' => ?_) (ih hr' ht.2)
        rw [boxNodes_same rt' env hl _ a' a', found_texts l h1, found_texts (eased l x) h1', ht.1, eased_textNodes]
  have hg : gapNodes l = gapNodes l' := by
    unfold gapNodes
    rw [hl.options, hl.space]
    rfl
  have hnodes := tokensLoop_two hg hsame l.attrList l'.attrList
  obtain ⟨m, h⟩ := h
  have hu' : Costs { l.toOptions with tolerance := x } := ⟨hu.line, hu.badness, hu.fitness, hu.flagged, hx⟩
  have ho : l'.toOptions = { l.toOptions with tolerance := x } := hl.options
  unfold leftAlignUniform leftAlignedNodes at h ⊢
  cases h1 : tokensLoop rt' env l' ts' l'.attrList with
  | error e => rw [h1] at h; cases h
  | ok p' =>
    cases h2 : tokensLoop rt env l ts l.attrList with
    | error e => rw [h1, h2] at hnodes; cases hnodes
    | ok p =>
      rw [h1, h2] at hnodes
      have hn : p.1.map strip = p'.1.map strip := Except.ok.inj hnodes
      rw [h1] at h
      simp only [ok_bind] at h ⊢
      obtain ⟨u, hlast⟩ := tokensLoop_last hts h2
      have hall : ∀ n ∈ p.1, Mild n := by
        refine all_tokens (l := l) (P := Mild) ?_ ?_ ?_ rt env ts l.attrList p h2
        · intro a b c e; simp [newGlue] at e
        · intro w t a e; simp [newBox] at e
        · intro w b q hq _
          simp only [List.mem_cons, List.not_mem_nil, or_false] at hq
          rcases hq with rfl | rfl | rfl | rfl | rfl | rfl
          · exact Or.inr (within_int _ _ (by decide) (by decide) (by decide))
          · exact Or.inr (within_int _ _ (by decide) (by decide) (by decide))
          · exact Or.inr hp
          · exact Or.inr (by rw [hpu]; exact within_int _ _ (by decide) (by decide) (by decide))
          · exact Or.inr (by rw [hh]; exact within_int _ _ (by decide) (by decide) (by decide))
          · exact Or.inl rfl
      obtain ⟨N, hN⟩ : ∃ N, N = p.1.map strip := ⟨_, rfl⟩
      have hNlast : N = u.map strip ++ [newPenalty zero minusInfinity true] := by rw [hN, hlast]; simp [strip, newPenalty]
      have hmild : ∀ n ∈ N, Mild n := by
        intro n hm
        rw [hN, List.mem_map] at hm
        obtain ⟨k, hk, rfl⟩ := hm
        exact hall k hk
      have hW : l'.scale maxWidth = l.scale maxWidth := by
        rw [ho]; rfl
      rw [← breakPoints_strip, ← hn, ← hN, ho] at h
      rw [← breakPoints_strip, ← hN]
      obtain ⟨res, a1, a2⟩ := breakPoints_none (rt := rt) (ideal := l.scale maxWidth) hu hNlast hmild
      obtain ⟨res', b1, b2⟩ := breakPoints_none (rt := rt') (ideal := l.scale maxWidth) hu' hNlast hmild
      have hs : findStartNode N 0 ≤ N.length := by
        have := start_before (u.map strip) 0
        rw [← hNlast] at this
        rw [show N.length = (u.map strip).length + 1 by rw [hNlast]; simp]
        omega
      have hroot : Live N [rootPoint] := fun a ha => by
        rw [List.mem_singleton.mp ha]
        exact ⟨by show 0 < _; rw [hNlast]; simp, rfl⟩
      have hcov := covers_breakLoop rt hw hu hu' hle (N := N) (ideal := l.scale maxWidth) (N.drop (findStartNode N 0))
        (fun n hn => hmild n (List.mem_of_mem_drop hn)) _ (findStartNode N 0) (by simp; omega) Sums.zero [rootPoint] [rootPoint]
        hroot hroot (fun a ha => ⟨a, ha, rfl, rfl⟩) a1 b1
      have hsc : Options.scale { l.toOptions with tolerance := x } maxWidth = l.scale maxWidth := rfl
      simp only [hsc] at h
      rcases a2 with ⟨_, a2⟩ | ⟨a2, _⟩
      · rw [a2]; exact ⟨_, rfl⟩
      · exfalso
        rcases b2 with ⟨b2, _⟩ | ⟨_, chain, b3⟩
        · subst b2
          obtain ⟨a, as, rfl⟩ := List.exists_cons_of_ne_nil a2
          obtain ⟨a', c, _⟩ := hcov a (by simp)
          cases c
        · rw [b3] at h
          simp only [ok_bind] at h
          cases hr : render { l.toOptions with tolerance := x } p'.2 p'.1 chain with
          | error e => rw [hr] at h; cases h
          | ok ls => rw [hr] at h; cases h

end

end Verif.Proofs.LB
