import Verif.Model.Marginals
import Mathlib.Analysis.SpecialFunctions.Trigonometric.Inverse
import Mathlib.Analysis.SpecialFunctions.Complex.Arg

/-!
# Model of further functions of `bayespy/utils/random.py` and `bayespy/utils/misc.py`

Draws of NumPy are arguments.  `gaussian_logpdf` and `gamma_logpdf` are in `Marginals.lean`, the samplers of the nodes in
`Sampling.lean`.
-/

namespace Verif
open Matrix

/-- `random.gaussian_entropy`, lines 147-161; `D` is a number or, for gradients, its derivative -/
noncomputable def randGaussianEntropy (logdetV D : ℝ) : ℝ :=
  -0.5 * logdetV + 0.5 * D + 0.5 * D * Real.log (2 * Real.pi)

/-- `random.gamma_entropy`, lines 185-206 -/
def randGammaEntropy (a logb gammalna psia apsia : ℝ) : ℝ := a - logb + gammalna + psia - apsia

/-- `random.logodds_to_probability`, lines 351-355 -/
noncomputable def logoddsToProbability (x : ℝ) : ℝ := 1 / (1 + Real.exp (-x))

/-- `random.covariance(D, nu=nu)`, lines 73-108, with the standard normal draws `C`; `linalg.inv` is `np.linalg.inv`, which
raises `LinAlgError` for singular matrices (it is a subclass of `ValueError`) -/
noncomputable def randCovariance {D nu : ℕ} (C : Matrix (Fin D) (Fin nu) ℝ) : Except PyErr (Matrix (Fin D) (Fin D) ℝ) :=
  if nu < D then .error .valueError
  else
    let S := (1 / (nu : ℝ)) • (C * Cᵀ)
    if S.det = 0 then .error .valueError else .ok S⁻¹

/-- `random.correlation(D)`, lines 110-117, with the standard normal draws `X` -/
noncomputable def randCorrelation {D : ℕ} (X : Matrix (Fin D) (Fin D) ℝ) : Matrix (Fin D) (Fin D) ℝ :=
  let s := fun i => Real.sqrt (∑ j, X i j ^ 2)
  let Y : Matrix (Fin D) (Fin D) ℝ := of fun i j => X i j / s i
  Y * Yᵀ

/-- `random.svd(s)`, lines 216-224, with the matrices `U` and `V` drawn by `orth` -/
def randSvd {D : ℕ} (s : Fin D → ℝ) (U V : Matrix (Fin D) (Fin D) ℝ) : Matrix (Fin D) (Fin D) ℝ :=
  (of fun i j => U i j * s j) * Vᵀ

/-- The latitude of `random.sphere`, lines 226-234, with the uniform draw `u` from `[-1, 1]`; in degrees -/
noncomputable def sphereLat (u : ℝ) : ℝ := Real.arccos u * 180 / Real.pi - 90

/-- `misc.dist_haversine`, lines 1350-1365, for one pair of points, in degrees; `np.arctan2(y, x)` is the argument of `x + iy`.
The result of the function has the distances of all pairs -/
noncomputable def distHaversine (c1 c2 : ℝ × ℝ) (radius : ℝ) : ℝ :=
  let lat1 := c1.1 * Real.pi / 180
  let lon1 := c1.2 * Real.pi / 180
  let lat2 := c2.1 * Real.pi / 180
  let lon2 := c2.2 * Real.pi / 180
  let dlat := lat2 - lat1
  let dlon := lon2 - lon1
  let A := Real.sin (dlat / 2) ^ 2 + Real.cos lat1 * Real.cos lat2 * Real.sin (dlon / 2) ^ 2
  let C := 2 * Complex.arg (Real.sqrt (1 - A) + Real.sqrt A * Complex.I)
  radius * C

end Verif
