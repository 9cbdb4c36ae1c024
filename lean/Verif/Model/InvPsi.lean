import Verif.Model.Dist

/-!
# Model of `misc.invpsi` (`bayespy/utils/misc.py`, lines 1404-1426), as it is computed

Simplifications: real numbers instead of floating point numbers; one element of the array.  `special.psi` is `digamma`,
`special.polygamma(1, ·)` its derivative.  The function that `PointEstimate.lean` uses is the exact inverse; here is the
approximation that the code computes.
-/

namespace Verif

/-- the starting point, `np.where(...)` -/
noncomputable def invpsiStart (x : ℝ) : ℝ :=
  if -2.22 ≤ x then Real.exp x + 0.5 else -1 / (x - digamma 1)

/-- one turn of the loop -/
noncomputable def invpsiStep (x y : ℝ) : ℝ := y - (digamma y - x) / deriv digamma y

/-- the loop with `n` turns -/
noncomputable def invpsiLoop (n : ℕ) (x : ℝ) : ℝ := (invpsiStep x)^[n] (invpsiStart x)

/-- `misc.invpsi(x)` -/
noncomputable def invpsiComputed (x : ℝ) : ℝ := invpsiLoop 5 x

end Verif
