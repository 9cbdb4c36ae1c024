import Verif.Model.Mixture
import Mathlib.Data.Real.Basic

/-!
# Model of the normaliser of Gaussian Markov chains as an array computation
-/

namespace Verif
open Spec

/-- The part of `_compute_cgf_for_gaussian_markov_chain`, `gaussian_markov_chain.py` lines 260-266, which adds the
logarithms of the precisions of the noise, `0.5 * (N-1) * np.sum(logdet_nu, axis=-1)` etc., for a chain of `N` states. -/
noncomputable def gmcLogdetNu (N : Nat) (X : Arr ℝ) : Except PyErr (Arr ℝ) :=
  if X.shape.length = 1 then do
    let s ← npSumLast X 1
    return { s with get := fun c => 0.5 * ((N : ℝ) - 1) * s.get c }
  else if X.shape.length = 0 then .error .indexError
  else if axisLen X.shape 1 = 1 then do
    let s ← npSumLast X 2
    return { s with get := fun c => 0.5 * ((N : ℝ) - 1) * s.get c }
  else do
    let s ← npSumLast X 2
    return { s with get := fun c => 0.5 * s.get c }

end Verif
