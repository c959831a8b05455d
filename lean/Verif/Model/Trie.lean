import Verif.Go.Basic

/-! # Model of `wordbreak/hyphenator/internal/trie/rune_trie.go` -/

namespace Verif.Model
open Verif.Go

/-- `RuneTrie` (internal/trie/rune_trie.go:6-9). A nil `value` is `none`. The map `children` is an
association list, only accessed through `childGet`, `childSet`, `childDel` below; a nil map and an
empty map are the same (the code only distinguishes them to allocate). Nodes are never shared, so
that pointers are not modelled. -/
inductive Trie (V : Type) where
  | node (value : Option V) (children : List (Rune × Trie V))

namespace Trie
variable {V : Type}

/-- Field `value` (rune_trie.go:7). -/
def value : Trie V → Option V
  | node v _ => v

/-- Field `children` (rune_trie.go:8). -/
def children : Trie V → List (Rune × Trie V)
  | node _ c => c

/-- `NewRuneTrie` (rune_trie.go:12-14). -/
def empty : Trie V := node none []

/-- Map access `children[r]` (rune_trie.go:22, 38, 64): nil when absent. -/
def childGet (r : Rune) : List (Rune × Trie V) → Option (Trie V)
  | [] => none
  | (q, t) :: rest => if q = r then some t else childGet r rest

/-- Map deletion `delete(children, r)` (rune_trie.go:79). -/
def childDel (r : Rune) : List (Rune × Trie V) → List (Rune × Trie V)
  | [] => []
  | (q, t) :: rest => if q = r then childDel r rest else (q, t) :: childDel r rest

/-- Map assignment `children[r] = t` (rune_trie.go:44), also used for an in-place update of a child. -/
def childSet (r : Rune) (t : Trie V) (c : List (Rune × Trie V)) : List (Rune × Trie V) :=
  (r, t) :: childDel r c

/-- `Get` (rune_trie.go:19-29). -/
def get : List Rune → Trie V → Option V
  | [], t => t.value
  | r :: key, t =>
    match childGet r t.children with
    | none => none
    | some child => get key child

/-- `Put` (rune_trie.go:35-53): the updated trie and the result. The loop walks down to the node,
allocating missing nodes; the recursion rebuilds the path. -/
def put : List Rune → Option V → Trie V → Trie V × Bool
  | [], v, t => (node v t.children, t.value.isNone)
  | r :: key, v, t =>
    match childGet r t.children with
    | none =>
      let (child, isNew) := put key v empty
      (node t.value (childSet r child t.children), isNew)
    | some c =>
      let (child, isNew) := put key v c
      (node t.value (childSet r child t.children), isNew)

/-- `isLeaf` (rune_trie.go:101-103). -/
def isLeaf (t : Trie V) : Bool := t.children.isEmpty

/-- `Delete` (rune_trie.go:59-93), below a node: `none` when the key leads nowhere (rune_trie.go:65-68).
The backward loop over the path (rune_trie.go:74-90) is the return path of the recursion; the boolean
tells that the loop is still running, i.e. that the node just processed is to be deleted from its
parent. -/
def del : List Rune → Trie V → Option (Trie V × Bool)
  | [], t => some (node none t.children, t.isLeaf)
  | r :: key, t =>
    match childGet r t.children with
    | none => none
    | some c =>
      match del key c with
      | none => none
      | some (c', prune) =>
        if prune then
          let ch := childDel r t.children
          if !ch.isEmpty then some (node t.value ch, false)  -- parent has other children, stop
          else if t.value.isSome then some (node t.value [], false) -- parent has a value, stop
          else some (node t.value [], true)
        else
          some (node t.value (childSet r c' t.children), false)

/-- `Delete` (rune_trie.go:59-93): the updated trie and the result. -/
def delete (key : List Rune) (t : Trie V) : Trie V × Bool :=
  match del key t with
  | none => (t, false)
  | some (t', _) => (t', true)

end Trie
end Verif.Model
