import Verif.Proofs.Trie

/-! # Properties C17–C18: the trie -/

namespace Verif.Props
open Verif.Go Verif.Model Verif.Proofs

/-- A call that modifies a trie. -/
inductive TrieOp (V : Type) where
  | put (key : List Rune) (value : Option V)
  | delete (key : List Rune)

namespace TrieOp
variable {V : Type}

/-- The key of a call. -/
def key : TrieOp V → List Rune
  | put k _ => k
  | delete k => k

/-- What is to be found at its key after a call. -/
def result : TrieOp V → Option V
  | put _ v => v
  | delete _ => none

/-- The call does not store nil. -/
def storesValue : TrieOp V → Prop
  | put _ v => v ≠ none
  | delete _ => True

/-- Execution of a call. -/
def exec (t : Trie V) : TrieOp V → Trie V
  | put k v => (t.put k v).1
  | delete k => (t.delete k).1

end TrieOp

/-- The trie after a history of calls (first call first), starting with a new trie. -/
def trieAfter {V : Type} (h : List (TrieOp V)) : Trie V := h.foldl TrieOp.exec Trie.empty

/-- Specification: the last call of the history for that key decides. -/
def lastCall {V : Type} (h : List (TrieOp V)) (k : List Rune) : Option V :=
  match h.reverse.find? (fun op => op.key == k) with
  | some op => op.result
  | none => none

/-- **C17.** After any history of Put and Delete, Get is decided by the last call with that key. -/
theorem C17_trie_is_map {V : Type} (h : List (TrieOp V)) (k : List Rune) :
    (trieAfter h).get k = lastCall h k := by
  unfold trieAfter lastCall
  generalize hr : h.reverse = r
  have : h = r.reverse := by rw [← hr, List.reverse_reverse]
  subst this
  clear hr
  induction r with
  | nil => simpa using Trie.get_empty k
  | cons op r ih =>
    rw [List.reverse_cons, List.foldl_append]
    simp only [List.foldl_cons, List.foldl_nil, List.find?_cons]
    cases op with
    | put k' v =>
      simp only [TrieOp.exec, TrieOp.key, Trie.get_put]
      by_cases e : k = k'
      · subst e; simp [TrieOp.result]
      · simp only [if_neg e, ih]
        have : (k' == k) = false := by simpa using fun h => e h.symm
        rw [this]
        rfl
    | delete k' =>
      simp only [TrieOp.exec, TrieOp.key, Trie.get_delete]
      by_cases e : k = k'
      · subst e; simp [TrieOp.result]
      · simp only [if_neg e, ih]
        have : (k' == k) = false := by simpa using fun h => e h.symm
        rw [this]
        rfl

example : (trieAfter [.put [1, 2] (some 7), .put [1] (some 8), .delete [1, 2], .put [1] (some 9)]).get [1]
    = some 9 := by decide
example : (trieAfter [.put [1, 2] (some 7), .put [1] (some 8), .delete [1], .delete [5]]).get [1, 2]
    = some 7 := by decide

theorem trieAfter_WF {V : Type} (h : List (TrieOp V)) (hv : ∀ op ∈ h, op.storesValue) :
    Trie.WF (trieAfter h) := by
  unfold trieAfter
  generalize hr : h.reverse = r
  have : h = r.reverse := by rw [← hr, List.reverse_reverse]
  subst this
  clear hr
  induction r with
  | nil => exact Trie.WF_empty
  | cons op r ih =>
    rw [List.reverse_cons, List.foldl_append]
    simp only [List.reverse_cons, List.mem_append] at hv
    have ih' := ih (fun o ho => hv o (Or.inl ho))
    have hop := hv op (Or.inr (by simp))
    cases op with
    | put k v =>
      cases v with
      | none => exact absurd rfl hop
      | some v => exact Trie.WF_put v k _ ih'
    | delete k => exact Trie.WF_delete k _ ih'

/-- **C18.** Put reports whether the key had no value. -/
theorem C18_put_result {V : Type} (h : List (TrieOp V)) (k : List Rune) (v : Option V) :
    ((trieAfter h).put k v).2 = true ↔ lastCall h k = none := by
  rw [Trie.put_result, C17_trie_is_map]; simp

/-- **C18.** Delete of a non-empty key reports whether the key is a prefix of some stored key. -/
theorem C18_delete_result {V : Type} (h : List (TrieOp V)) (hv : ∀ op ∈ h, op.storesValue)
    (k : List Rune) (hk : k ≠ []) :
    ((trieAfter h).delete k).2 = true ↔ ∃ s v, lastCall h (k ++ s) = some v := by
  rw [Trie.delete_result k _ (trieAfter_WF h hv)]
  simp only [C17_trie_is_map, hk, false_or]

/-- **C18.** Delete of the empty key always returns true, even on an empty trie. -/
theorem C18_delete_empty_key {V : Type} (h : List (TrieOp V)) (hv : ∀ op ∈ h, op.storesValue) :
    ((trieAfter h).delete []).2 = true := by
  rw [Trie.delete_result [] _ (trieAfter_WF h hv)]; exact Or.inl rfl

/-- **C18.** Every branch of a reachable trie leads to a stored value: if one can walk down the trie
along a non-empty key `k`, then some stored key begins with `k`. -/
theorem C18_branches_live {V : Type} (h : List (TrieOp V)) (hv : ∀ op ∈ h, op.storesValue)
    (k : List Rune) (hk : k ≠ []) (n : Trie V) (hn : Trie.nodeAt k (trieAfter h) = some n) :
    ∃ s v, lastCall h (k ++ s) = some v := by
  obtain ⟨s, v, hs⟩ := trieAfter_WF h hv k n hk hn
  refine ⟨s, v, ?_⟩
  rw [← C17_trie_is_map, Trie.get_append, hn]; exact hs

/-- **C18.** When nothing is stored any more, the trie is a new trie: no branch is left. -/
theorem C18_no_garbage {V : Type} (h : List (TrieOp V)) (hv : ∀ op ∈ h, op.storesValue)
    (hn : ∀ k, lastCall h k = none) : trieAfter h = Trie.empty :=
  Trie.WF_all_none (trieAfter_WF h hv) (fun k => by rw [C17_trie_is_map, hn])

example : ((trieAfter [.put [1, 2] (some 7)]).delete [1]).2 = true := by decide
example : trieAfter [.put [1, 2] (some 7), .put [1] (some 8), .delete [1], .delete [1, 2]] = Trie.empty := rfl

end Verif.Props
