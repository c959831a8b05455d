/-!
# Notions of the Go language used by the model

Nothing here models a particular function of `/repo`; these are the Go primitives the
transcription is written with.
-/

namespace Verif.Go

/- A Go `rune` (`int32`). Modelled by an unbounded integer: the code only compares runes, masks
them after a validity check, and stores them. -/
scoped notation "Rune" => Int

/-- The run-time panics the code may raise. -/
inductive Panic where
  | index        -- index out of range
  | slice        -- slice bounds out of range
  | explicit     -- call to panic(...)
  | negRepeat    -- make([]T, 0, n) with n < 0 or n too large
  deriving DecidableEq, Repr

/-- Result of a Go function that may panic. -/
abbrev Res (α : Type) := Except Panic α

deriving instance DecidableEq for Except

/-- Bitwise complement of a Go `int`: `^x`. -/
def compl (x : Int) : Int := -x - 1

/-- `l[i]`, with bounds check. -/
def index (l : List α) (i : Int) : Res α :=
  if i < 0 then .error .index
  else match l[i.toNat]? with
    | some a => .ok a
    | none => .error .index

/-- `l[a:b]`, with bounds check, for a slice whose capacity is its length. -/
def slice (l : List α) (a b : Int) : Res (List α) :=
  if 0 ≤ a ∧ a ≤ b ∧ b ≤ l.length then
    .ok ((l.drop a.toNat).take (b.toNat - a.toNat))
  else .error .slice

@[simp] theorem ok_bind (a : α) (f : α → Res β) : (Except.ok a >>= f) = f a := rfl
@[simp] theorem error_bind (e : Panic) (f : α → Res β) :
    ((Except.error e : Res α) >>= f) = .error e := rfl
@[simp] theorem pure_eq_ok (a : α) : (pure a : Res α) = .ok a := rfl

theorem slice_ok {l : List α} {a b : Nat} (h1 : a ≤ b) (h2 : b ≤ l.length) :
    slice l (a : Int) (b : Int) = .ok ((l.drop a).take (b - a)) := by
  unfold slice
  rw [if_pos (by omega)]
  simp

theorem index_ok {l : List α} {i : Nat} (h : i < l.length) :
    index l (i : Int) = .ok l[i] := by
  unfold index
  rw [if_neg (by omega)]
  simp [h]

theorem compl_neg {x : Int} (h : 0 ≤ x) : compl x < 0 := by unfold compl; omega

end Verif.Go
