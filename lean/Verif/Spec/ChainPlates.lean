import Verif.Spec.MarkovChain
import Verif.Spec.Arr
import Verif.Model.Arr
import Verif.Model.Utils

/-!
# The chain of one plate
-/

namespace Verif.Spec

/-- The weights of the first state on plate `p`, given an array of shape `plates ++ [D]` of their logarithms; plates are read with NumPy's
broadcasting. -/
noncomputable def plateFirst (D : Nat) (X : Arr (WithBot ℝ)) (p : List Nat) : Fin D → ℝ := fun i => expBot (X.at (coord (p ++ [(i : Nat)])))

/-- The weights of the transitions on plate `p`, given an array of shape `plates ++ [N, D, D]` of their logarithms -/
noncomputable def plateSteps (D : Nat) (X : Arr (WithBot ℝ)) (p : List Nat) : Nat → Fin D → Fin D → ℝ :=
  fun n i j => expBot (X.at (coord (p ++ [n, (i : Nat), (j : Nat)])))

end Verif.Spec
