import Verif.Model.Linebreak

/-! # Specification of the work of the search -/

namespace Verif.Spec.LB
open Verif.Model.LB

/-- The map of candidates is walked without repetition. -/
def OneWalk (rt : Runtime) : Prop := ∀ i n, (rt.order i n).Nodup

end Verif.Spec.LB
