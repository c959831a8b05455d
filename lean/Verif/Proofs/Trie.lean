import Verif.Model.Trie

/-! # Lemmas on tries -/

namespace Verif.Proofs
open Verif.Go Verif.Model

namespace Trie
open Verif.Model.Trie
variable {V : Type}

@[simp] theorem value_node (v : Option V) (c) : (Trie.node v c).value = v := rfl
@[simp] theorem children_node (v : Option V) (c) : (Trie.node v c).children = c := rfl

theorem childGet_del_same (r : Rune) (c : List (Rune × Trie V)) :
    childGet r (childDel r c) = none := by
  induction c with
  | nil => rfl
  | cons p c ih =>
    obtain ⟨q, t⟩ := p
    by_cases h : q = r <;> simp [childDel, childGet, h, ih]

theorem childGet_del_ne {r q : Rune} (hne : q ≠ r) (c : List (Rune × Trie V)) :
    childGet q (childDel r c) = childGet q c := by
  induction c with
  | nil => rfl
  | cons p c ih =>
    obtain ⟨x, t⟩ := p
    by_cases h : x = r
    · subst h; simp [childDel, childGet, ih, Ne.symm hne]
    · by_cases h2 : x = q
      · simp [childDel, childGet, h2, hne]
      · simp [childDel, childGet, h, h2, ih]

theorem childGet_set_same (r : Rune) (t : Trie V) (c) : childGet r (childSet r t c) = some t := by
  simp [childSet, childGet]

theorem childGet_set_ne {r q : Rune} (hne : q ≠ r) (t : Trie V) (c) :
    childGet q (childSet r t c) = childGet q c := by
  simp [childSet, childGet, Ne.symm hne, childGet_del_ne hne]

theorem childGet_isSome_of_ne_nil {c : List (Rune × Trie V)} (h : c ≠ []) :
    ∃ r t, childGet r c = some t := by
  cases c with
  | nil => exact absurd rfl h
  | cons p c => obtain ⟨q, t⟩ := p; exact ⟨q, t, by simp [childGet]⟩

theorem get_empty (k : List Rune) : get k (empty : Trie V) = none := by
  cases k <;> simp [Trie.get, empty, childGet]

theorem get_leaf (t : Trie V) (h : t.children = []) (hv : t.value = none) (k : List Rune) :
    get k t = none := by
  cases k <;> simp [Trie.get, h, hv, childGet]

theorem get_put_same (v : Option V) : ∀ (k : List Rune) (t : Trie V), get k (put k v t).1 = v := by
  intro k
  induction k with
  | nil => intro t; simp [Trie.put, Trie.get]
  | cons r k ih =>
    intro t
    simp only [Trie.put]
    split <;> simp [Trie.get, childGet_set_same, ih]

theorem get_put_ne (v : Option V) : ∀ (k k' : List Rune) (t : Trie V), k' ≠ k →
    get k' (put k v t).1 = get k' t := by
  intro k
  induction k with
  | nil =>
    intro k' t h
    cases k' with
    | nil => exact absurd rfl h
    | cons r k' => simp [Trie.put, Trie.get]
  | cons r k ih =>
    intro k' t h
    cases k' with
    | nil => simp only [Trie.put]; split <;> simp [Trie.get]
    | cons q k' =>
      simp only [Trie.put]
      by_cases hq : q = r
      · subst hq
        have hk : k' ≠ k := fun e => h (by rw [e])
        split
        · rename_i hc
          simp [Trie.get, childGet_set_same, hc, ih _ _ hk, get_empty]
        · rename_i c hc
          simp [Trie.get, childGet_set_same, hc, ih _ _ hk]
      · split <;> simp [Trie.get, childGet_set_ne hq]

/-- What the pruning flag means. -/
theorem del_prune : ∀ (k : List Rune) (t t' : Trie V), del k t = some (t', true) →
    t'.children = [] ∧ t'.value = none := by
  intro k
  cases k with
  | nil =>
    intro t t' h
    simp only [del, Option.some.injEq, Prod.mk.injEq] at h
    obtain ⟨rfl, h⟩ := h
    simpa [isLeaf] using h
  | cons r k =>
    intro t t' h
    simp only [del] at h
    split at h
    · cases h
    · split at h
      · cases h
      · split at h
        · split at h
          · simp at h
          · split at h
            · simp at h
            · rename_i hv
              simp at h
              subst h
              simpa using hv
        · simp at h

theorem get_del_same : ∀ (k : List Rune) (t t' : Trie V) (b : Bool), del k t = some (t', b) →
    get k t' = none := by
  intro k
  induction k with
  | nil => intro t t' b h; simp [del] at h; simp [Trie.get, ← h.1]
  | cons r k ih =>
    intro t t' b h
    simp only [del] at h
    split at h
    · cases h
    · rename_i c hc
      split at h
      · cases h
      · rename_i c' prune hd
        split at h
        · split at h
          · simp at h; obtain ⟨rfl, _⟩ := h
            simp [Trie.get, childGet_del_same]
          · split at h
            · simp at h; obtain ⟨rfl, _⟩ := h
              simp [Trie.get, childGet]
            · simp at h; obtain ⟨rfl, _⟩ := h
              simp [Trie.get, childGet]
        · simp at h; obtain ⟨rfl, _⟩ := h
          simp [Trie.get, childGet_set_same, ih _ _ _ hd]

theorem get_del_ne : ∀ (k k' : List Rune) (t t' : Trie V) (b : Bool), k' ≠ k →
    del k t = some (t', b) → get k' t' = get k' t := by
  intro k
  induction k with
  | nil =>
    intro k' t t' b hne h
    simp [del] at h
    cases k' with
    | nil => exact absurd rfl hne
    | cons q k' => simp [Trie.get, ← h.1]
  | cons r k ih =>
    intro k' t t' b hne h
    simp only [del] at h
    split at h
    · cases h
    · rename_i c hc
      split at h
      · cases h
      · rename_i c' prune hd
        -- children of the result
        have key : t'.value = t.value ∧ (∀ q, q ≠ r → childGet q t'.children = childGet q t.children) ∧
            (childGet r t'.children = some c' ∨
              (childGet r t'.children = none ∧ prune = true)) := by
          split at h
          · rename_i hp
            split at h
            · simp at h; obtain ⟨rfl, _⟩ := h
              refine ⟨rfl, fun q hq => ?_, Or.inr ⟨?_, hp⟩⟩
              · simp [childGet_del_ne hq]
              · simp [childGet_del_same]
            · rename_i hemp
              have hch : childDel r t.children = [] := by simpa using hemp
              have hq' : ∀ q, q ≠ r → childGet q [] = childGet q t.children := by
                intro q hq
                rw [← childGet_del_ne hq t.children, hch]
              split at h
              · simp at h; obtain ⟨rfl, _⟩ := h
                exact ⟨rfl, hq', Or.inr ⟨rfl, hp⟩⟩
              · simp at h; obtain ⟨rfl, _⟩ := h
                exact ⟨rfl, hq', Or.inr ⟨rfl, hp⟩⟩
          · simp at h; obtain ⟨rfl, _⟩ := h
            exact ⟨rfl, fun q hq => by simp [childGet_set_ne hq], Or.inl (by simp [childGet_set_same])⟩
        obtain ⟨hval, hother, hr⟩ := key
        cases k' with
        | nil => simp [Trie.get, hval]
        | cons q k' =>
          by_cases hq : q = r
          · subst hq
            have hk : k' ≠ k := fun e => hne (by rw [e])
            have ih' := ih k' c c' prune hk hd
            rcases hr with hr | ⟨hr, hp⟩
            · simp [Trie.get, hr, hc, ih']
            · subst hp
              obtain ⟨h1, h2⟩ := del_prune k c c' hd
              rw [get_leaf c' h1 h2] at ih'
              simp [Trie.get, hr, hc, ← ih']
          · simp [Trie.get, hother q hq]

theorem get_delete_same (k : List Rune) (t : Trie V) (h : (delete k t).2 = true ∨ get k t = none) :
    get k (delete k t).1 = none := by
  unfold delete at *
  split
  · rename_i hd
    rw [hd] at h
    simpa using h
  · rename_i t' b hd
    exact get_del_same k t t' b hd

theorem del_none : ∀ (k : List Rune) (t : Trie V), del k t = none → get k t = none := by
  intro k
  induction k with
  | nil => intro t h; simp [del] at h
  | cons r k ih =>
    intro t h
    simp only [del] at h
    split at h
    · rename_i hc; simp [Trie.get, hc]
    · rename_i c hc
      split at h
      · rename_i hd
        simp [Trie.get, hc, ih c hd]
      · repeat (split at h <;> try simp at h)

theorem get_delete (k k' : List Rune) (t : Trie V) :
    get k' (delete k t).1 = if k' = k then none else get k' t := by
  unfold delete
  split
  · rename_i hd
    by_cases h : k' = k
    · subst h; simp [del_none k' t hd]
    · simp [h]
  · rename_i t' b hd
    by_cases h : k' = k
    · subst h; simp [get_del_same k' t t' b hd]
    · simp [h, get_del_ne k k' t t' b h hd]

theorem get_put (k k' : List Rune) (v : Option V) (t : Trie V) :
    get k' (put k v t).1 = if k' = k then v else get k' t := by
  by_cases h : k' = k
  · subst h; simp [get_put_same]
  · simp [h, get_put_ne v k k' t h]

theorem put_result (v : Option V) : ∀ (k : List Rune) (t : Trie V),
    (put k v t).2 = (get k t).isNone := by
  intro k
  induction k with
  | nil => intro t; simp [Trie.put, Trie.get]
  | cons r k ih =>
    intro t
    simp only [Trie.put]
    split
    · rename_i hc
      simp [Trie.get, hc, ih, get_empty]
    · rename_i c hc
      simp [Trie.get, hc, ih]

/-! ## Every branch leads to a value -/

/-- The node at a key. -/
def nodeAt : List Rune → Trie V → Option (Trie V)
  | [], t => some t
  | r :: k, t => match childGet r t.children with
    | none => none
    | some c => nodeAt k c

def Live (t : Trie V) : Prop := ∃ s v, get s t = some v

def WF (t : Trie V) : Prop := ∀ k n, k ≠ [] → nodeAt k t = some n → Live n

theorem get_append (k s : List Rune) (t : Trie V) :
    get (k ++ s) t = (nodeAt k t).bind (get s) := by
  induction k generalizing t with
  | nil => simp [nodeAt]
  | cons r k ih =>
    cases hc : childGet r t.children with
    | none => simp [Trie.get, nodeAt, hc]
    | some c => simpa [Trie.get, nodeAt, hc] using ih c

theorem WF_child {t c : Trie V} {r : Rune} (h : WF t) (hc : childGet r t.children = some c) :
    WF c ∧ Live c := by
  constructor
  · intro k n _ hn
    exact h (r :: k) n (by simp) (by simp [nodeAt, hc, hn])
  · exact h [r] c (by simp) (by simp [nodeAt, hc])

theorem WF_of_children {t : Trie V} (h : ∀ r c, childGet r t.children = some c → WF c ∧ Live c) :
    WF t := by
  intro k n hk hn
  cases k with
  | nil => exact absurd rfl hk
  | cons r k =>
    simp only [nodeAt] at hn
    split at hn
    · cases hn
    · rename_i c hc
      obtain ⟨h1, h2⟩ := h r c hc
      cases k with
      | nil => simp [nodeAt] at hn; subst hn; exact h2
      | cons q k => exact h1 _ n (by simp) hn

theorem WF_empty : WF (empty : Trie V) :=
  WF_of_children (by intro r c h; simp [empty, childGet] at h)

theorem WF_put (v : V) : ∀ (k : List Rune) (t : Trie V), WF t → WF (put k (some v) t).1 := by
  intro k
  induction k with
  | nil =>
    intro t h
    apply WF_of_children
    intro r c hc
    exact WF_child h (by simpa [Trie.put] using hc)
  | cons r k ih =>
    intro t h
    apply WF_of_children
    intro q c hc
    have : ∀ c0 : Trie V, WF c0 → c = (put k (some v) c0).1 → WF c ∧ Live c := by
      intro c0 h0 hc; subst hc
      exact ⟨ih c0 h0, k, v, get_put_same _ _ _⟩
    simp only [Trie.put] at hc
    split at hc
    · by_cases hq : q = r
      · subst hq
        simp [childGet_set_same] at hc
        exact this _ WF_empty hc.symm
      · simp [childGet_set_ne hq] at hc
        exact WF_child h hc
    · rename_i c0 hc0
      by_cases hq : q = r
      · subst hq
        simp [childGet_set_same] at hc
        exact this _ (WF_child h hc0).1 hc.symm
      · simp [childGet_set_ne hq] at hc
        exact WF_child h hc

theorem Live_of_child {t c : Trie V} {r : Rune} (hc : childGet r t.children = some c) (h : Live c) :
    Live t := by
  obtain ⟨s, v, hs⟩ := h
  exact ⟨r :: s, v, by simp [Trie.get, hc, hs]⟩

theorem WF_del : ∀ (k : List Rune) (t t' : Trie V) (b : Bool), WF t → del k t = some (t', b) →
    WF t' ∧ (b = false → Live t') := by
  intro k
  induction k with
  | nil =>
    intro t t' b h hd
    simp [del] at hd
    obtain ⟨rfl, hb⟩ := hd
    refine ⟨WF_of_children fun r c hc => WF_child h (by simpa using hc), ?_⟩
    intro hbf
    rw [hbf] at hb
    have hne : t.children ≠ [] := by
      intro he; simp [isLeaf, he] at hb
    obtain ⟨r, c, hc⟩ := childGet_isSome_of_ne_nil hne
    exact Live_of_child (r := r) (c := c) (by simpa using hc) (WF_child h hc).2
  | cons r k ih =>
    intro t t' b h hd
    simp only [del] at hd
    split at hd
    · cases hd
    · rename_i c hc
      split at hd
      · cases hd
      · rename_i c' prune hd'
        obtain ⟨ih1, ih2⟩ := ih c c' prune (WF_child h hc).1 hd'
        split at hd
        · split at hd
          · rename_i hemp
            simp at hd; obtain ⟨rfl, hb⟩ := hd
            have hw : ∀ q c, childGet q (childDel r t.children) = some c → WF c ∧ Live c := by
              intro q c hc
              by_cases hq : q = r
              · subst hq; rw [childGet_del_same] at hc; cases hc
              · rw [childGet_del_ne hq] at hc; exact WF_child h hc
            refine ⟨WF_of_children hw, fun _ => ?_⟩
            have hne : childDel r t.children ≠ [] := by
              intro he; simp [he] at hemp
            obtain ⟨q, c, hc⟩ := childGet_isSome_of_ne_nil hne
            exact Live_of_child (r := q) (c := c) (by simpa using hc) (hw q c hc).2
          · split at hd
            · rename_i hv
              simp at hd; obtain ⟨rfl, hb⟩ := hd
              refine ⟨WF_of_children (by intro q c hc; simp [childGet] at hc), fun _ => ?_⟩
              obtain ⟨v, hv⟩ := Option.isSome_iff_exists.mp hv
              exact ⟨[], v, by simp [Trie.get, hv]⟩
            · simp at hd; obtain ⟨rfl, hb⟩ := hd
              refine ⟨WF_of_children (by intro q c hc; simp [childGet] at hc), fun hf => ?_⟩
              subst hb; exact absurd hf (by decide)
        · rename_i hp
          simp at hd; obtain ⟨rfl, hb⟩ := hd
          have hl := ih2 (by simpa using hp)
          refine ⟨WF_of_children ?_, fun _ => ?_⟩
          · intro q x hx
            by_cases hq : q = r
            · subst hq; simp [childGet_set_same] at hx; subst hx; exact ⟨ih1, hl⟩
            · simp [childGet_set_ne hq] at hx; exact WF_child h hx
          · exact Live_of_child (r := r) (c := c') (by simp [childGet_set_same]) hl

theorem WF_delete (k : List Rune) (t : Trie V) (h : WF t) : WF (delete k t).1 := by
  unfold delete
  split
  · exact h
  · rename_i t' b hd; exact (WF_del k t t' b h hd).1

theorem del_isSome : ∀ (k : List Rune) (t : Trie V), (del k t).isSome = (nodeAt k t).isSome := by
  intro k
  induction k with
  | nil => intro t; simp [del, nodeAt]
  | cons r k ih =>
    intro t
    cases hc : childGet r t.children with
    | none => simp [del, nodeAt, hc]
    | some c =>
      simp only [del, nodeAt, hc]
      rw [← ih c]
      cases hd : del k c with
      | none => rfl
      | some p =>
        obtain ⟨c', prune⟩ := p
        simp only [Option.isSome_some]
        cases prune with
        | false => rfl
        | true =>
          simp only [if_true]
          split
          · rfl
          · split <;> rfl

theorem delete_result (k : List Rune) (t : Trie V) (h : WF t) :
    (delete k t).2 = true ↔ (k = [] ∨ ∃ s v, get (k ++ s) t = some v) := by
  have h1 : (delete k t).2 = (del k t).isSome := by
    unfold delete; split <;> rename_i hd <;> simp [hd]
  rw [h1, del_isSome]
  constructor
  · intro hs
    obtain ⟨n, hn⟩ := Option.isSome_iff_exists.mp hs
    by_cases hk : k = []
    · exact Or.inl hk
    · obtain ⟨s, v, hv⟩ := h k n hk hn
      exact Or.inr ⟨s, v, by rw [get_append, hn]; simpa using hv⟩
  · rintro (rfl | ⟨s, v, hv⟩)
    · simp [nodeAt]
    · rw [get_append] at hv
      cases hn : nodeAt k t with
      | none => rw [hn] at hv; simp at hv
      | some n => rfl

theorem WF_all_none {t : Trie V} (h : WF t) (hn : ∀ k, get k t = none) : t = empty := by
  obtain ⟨v, c⟩ := t
  have hv : v = none := by have := hn []; simpa [Trie.get] using this
  have hc : c = [] := by
    apply Classical.byContradiction
    intro hc
    obtain ⟨r, n, hr⟩ := childGet_isSome_of_ne_nil hc
    obtain ⟨s, v', hs⟩ := (WF_child h (by simpa using hr)).2
    have := hn (r :: s)
    simp [Trie.get, hr, hs] at this
  simp [hv, hc, empty]

end Trie
end Verif.Proofs
