import Verif.Go.Slice

/-! # Specification: parts that can be modified one by one -/

namespace Verif.Spec
open Verif.Go

/-- The arrays differ at most in the window. -/
def SameOutside (v : View) (mem mem' : List Rune) : Prop :=
  mem'.length = mem.length ∧ ∀ i, i < v.off ∨ v.off + v.len ≤ i → mem'[i]? = mem[i]?

/-- The window `p` lies in the window `v`. -/
def Within (v p : View) : Prop := v.off ≤ p.off ∧ p.off + p.len ≤ v.off + v.len

/-- The windows follow each other in the window `v`, in order, without overlap. -/
def InOrder (v : View) (ps : List View) : Prop :=
  (∀ p ∈ ps, Within v p) ∧ ps.Pairwise (fun p q => p.off + p.len ≤ q.off)

end Verif.Spec
