import Mathlib.Analysis.SpecialFunctions.Exp
import Verif.Model.Arr
import Verif.Spec.Arr

/-!
# Model of the covariance functions in `bayespy/utils/covfunc/covariance.py`

Real numbers; division by zero (a zero amplitude or lengthscale, `r = 1` in `gp_cov_pp2`) gives NaN or infinities in NumPy and
is not modelled: the theorems exclude it.  Sparse matrices are modelled by their elements.  Whether the two inputs are the same
object is part of the argument, as the code asks `x1 is x2`.  `scipy.spatial.distance.cdist` is modelled by its contract.
-/

namespace Verif
open Spec

/-- the argument `x2`: not given, the same object as `x1`, or another array -/
inductive SecondInput
  | none
  | same
  | other (x2 : Arr ℝ)

/-- `gp_cov_se(D2)`, lines 23-30 (with or without `overwrite`) -/
noncomputable def gpCovSe (D2 : Arr ℝ) : Arr ℝ := ⟨D2.shape, fun c => Real.exp (-0.5 * D2.get c)⟩

/-- `gp_cov_pp2_new(r, d, derivative)`, lines 32-64; the code gives `None` for other values of `derivative` -/
noncomputable def gpCovPp2New (r : ℝ) (d derivative : ℕ) : Option ℝ :=
  let j : ℕ := d / 2 + 2 + 1
  let a2 : ℝ := (j : ℝ) ^ 2 + 4 * j + 3
  let a1 : ℝ := 3 * j + 6
  let k1 := (1 - r) ^ (j + 2)
  let k2 := a2 * r ^ 2 + a1 * r + 3
  let dk1 := -((j : ℝ) + 2) * (1 - r) ^ (j + 1)
  let dk2 := 2 * a2 * r + a1
  let ddk1 := ((j : ℝ) + 2) * (j + 1) * (1 - r) ^ j
  let ddk2 := 2 * a2
  if derivative = 0 then some (k1 * k2 / 3)
  else if derivative = 1 then some ((k1 * dk2 + dk1 * k2) / 3)
  else if derivative = 2 then some ((ddk1 * k2 + 2 * dk1 * dk2 + k1 * ddk2) / 3)
  else none

/-- `gp_cov_pp2(r, d, gradient=True)`, lines 66-87 -/
noncomputable def gpCovPp2 (r : ℝ) (d : ℕ) : ℝ × ℝ :=
  let j : ℕ := d / 2 + 2 + 1
  let a2 : ℝ := (j : ℝ) ^ 2 + 4 * j + 3
  let a1 : ℝ := 3 * j + 6
  let k1 := (1 - r) ^ (j + 2)
  let k2 := a2 * r ^ 2 + a1 * r + 3
  let k := k1 * k2 / 3
  let dk := k * (j + 2) / (r - 1) + k1 * (2 * a2 * r + a1) / 3
  (k, dk)

/-- `gp_cov_delta(N)`, lines 89-96 -/
def gpCovDelta (N : ℕ) : Arr ℝ := ⟨[N, N], fun c => if c 0 = c 1 then 1 else 0⟩

/-- `squared_distance(x1, x2)`, lines 101-118; `cdist` raises `ValueError` for different numbers of columns -/
noncomputable def squaredDistance (x1 x2 : Arr ℝ) : Except PyErr (Arr ℝ) :=
  match x1.shape, x2.shape with
  | [m1, n1], [m2, n2] =>
    if m1 = 0 ∨ m2 = 0 then .ok ⟨[m1, m2], fun _ => 0⟩
    else if n1 ≠ n2 then .error .valueError
    else .ok ⟨[m1, m2], fun c => ∑ k ∈ Finset.range n1, (x1.get (coord [c 1, k]) - x2.get (coord [c 0, k])) ^ 2⟩
  | _, _ => .error .valueError

/-- `gp_standardize_input(x)`, lines 132-144 -/
def gpStandardizeInput (x : Arr ℝ) : Except PyErr (Arr ℝ) :=
  if x.shape.prod = 0 then npReshape x [0, 0]
  else if x.shape.length = 0 then npReshape x [1, 1]
  else if x.shape.length = 1 then npReshape x [x.shape.prod, 1]
  else if x.shape.length = 2 then .ok x
  else .error .exception

/-- `gp_preprocess_inputs(x1, x2)`, lines 146-160 -/
def gpPreprocessInputs (x1 : Arr ℝ) (x2 : SecondInput) : Except PyErr (Arr ℝ × SecondInput) := do
  let y1 ← gpStandardizeInput x1
  match x2 with
  | .none => return (y1, .none)
  | .same => return (y1, .same)
  | .other x2 =>
    let y2 ← gpStandardizeInput x2
    return (y1, .other y2)

/-- `misc.array_to_scalar(x)`, `misc.py` lines 481-485 -/
def arrayToScalar (x : Arr ℝ) : Except PyErr ℝ :=
  if x.shape.prod = 0 then .error .indexError else .ok (x.get fun _ => 0)

/-- multiply every element -/
def Arr.scale (a : ℝ) (X : Arr ℝ) : Arr ℝ := ⟨X.shape, fun c => X.get c * a⟩

/-- `np.shape(x)[0]` of a standardized input -/
def rowCount (x : Arr ℝ) : ℕ := x.shape.headD 0

/-- `covfunc_zeros`, lines 189-218: line 191 uses the local variable `inputs` before it is assigned -/
def covfuncZeros (_x1 : Arr ℝ) (_x2 : SecondInput) : Except PyErr (Arr ℝ) := .error .nameError

/-- the matrix of `covfunc_delta`, lines 232-265 -/
def covDelta (a : ℝ) (x1 : Arr ℝ) : SecondInput → Arr ℝ
  | .none => ⟨[rowCount x1], fun _ => 1 * a ^ 2⟩
  | .same => (gpCovDelta (rowCount x1)).scale (a ^ 2)
  | .other x2 => ⟨[rowCount x1, rowCount x2], fun _ => 0⟩

/-- `covfunc_delta(amplitude, x1, x2, gradient)`, lines 220-275: the matrix and, if asked for, its gradient -/
noncomputable def covfuncDelta (amplitude : Arr ℝ) (x1 : Arr ℝ) (x2 : SecondInput) (gradient : Bool) :
    Except PyErr (Arr ℝ × List (Arr ℝ)) := do
  let a ← arrayToScalar amplitude
  let (x1, x2) ← gpPreprocessInputs x1 x2
  let K := covDelta a x1 x2
  return (K, if gradient then [K.scale (2 / a)] else [])

/-- `covfunc_pp2`, lines 277-352: without `x2` line 298 uses the name `x`, which does not exist; with it, lines 310 and 314 use
functions which `scipy.spatial.distance` does not have -/
noncomputable def covfuncPp2 (amplitude lengthscale : Arr ℝ) (x1 : Arr ℝ) (x2 : SecondInput) (_gradient : Bool) :
    Except PyErr (Arr ℝ × List (Arr ℝ)) := do
  let _ ← arrayToScalar amplitude
  let _ ← arrayToScalar lengthscale
  let (_, x2) ← gpPreprocessInputs x1 x2
  match x2 with
  | .none => throw .nameError
  | _ => throw .attributeError

/-- the matrix of `covfunc_se` and its gradient with respect to the lengthscale, lines 362-387 -/
noncomputable def covSe (a l : ℝ) (x1 : Arr ℝ) : SecondInput → Except PyErr (Arr ℝ × Arr ℝ)
  | .none => .ok (⟨[rowCount x1], fun _ => 1 * a ^ 2⟩, ⟨[rowCount x1], fun _ => 0⟩)
  | .same => do
    let D2 ← squaredDistance (x1.scale (1 / l)) (x1.scale (1 / l))
    let K := (gpCovSe D2).scale (a ^ 2)
    return (K, ⟨K.shape, fun c => D2.get c / l * K.get c⟩)
  | .other x2 => do
    let D2 ← squaredDistance (x1.scale (1 / l)) (x2.scale (1 / l))
    let K := (gpCovSe D2).scale (a ^ 2)
    return (K, ⟨K.shape, fun c => D2.get c / l * K.get c⟩)

/-- `covfunc_se(amplitude, lengthscale, x1, x2, gradient)`, lines 355-398: the matrix and, if asked for, its gradients with
respect to the amplitude and the lengthscale -/
noncomputable def covfuncSe (amplitude lengthscale : Arr ℝ) (x1 : Arr ℝ) (x2 : SecondInput) (gradient : Bool) :
    Except PyErr (Arr ℝ × List (Arr ℝ)) := do
  let a ← arrayToScalar amplitude
  let l ← arrayToScalar lengthscale
  let (x1, x2) ← gpPreprocessInputs x1 x2
  let (K, gl) ← covSe a l x1 x2
  return (K, if gradient then [K.scale (2 / a), gl] else [])

end Verif
