import Verif.Go.Basic

/-! # Go slices of runes over an explicit backing array

Used where capacity or aliasing is observable. The array is a list `mem`; it extends up to the
capacity of the slice of the caller. A slice is a window of it; all windows cut from the slice of the
caller with `x[a:b]` share this end of the array. -/

namespace Verif.Go

/-- A window of the backing array. -/
structure View where
  off : Nat
  len : Nat
deriving DecidableEq, Repr

/-- The runes in the window. -/
def View.elems (mem : List Rune) (v : View) : List Rune := (mem.drop v.off).take v.len

/-- The window lies in the array. -/
def View.Valid (mem : List Rune) (v : View) : Prop := v.off + v.len ≤ mem.length

/-- `v[i]`, with bounds check. -/
def View.get (mem : List Rune) (v : View) (i : Int) : Res Rune := index (v.elems mem) i

/-- `v[a:b]`, with the bounds check of Go: up to the capacity, not the length. -/
def View.sub (mem : List Rune) (v : View) (a b : Int) : Res View :=
  if 0 ≤ a ∧ a ≤ b ∧ v.off + b ≤ mem.length then .ok ⟨v.off + a.toNat, b.toNat - a.toNat⟩
  else .error .slice

theorem View.elems_length {mem : List Rune} {v : View} (h : v.Valid mem) : (v.elems mem).length = v.len := by
  unfold View.Valid at h
  simp [View.elems]; omega

end Verif.Go
