import Verif.Model.LinalgAxes
import Verif.Model.ExpFamily
import Verif.Model.Support

/-!
# Model of the Gaussian distributions on arrays, `gaussian.py`

The functions of `GaussianDistribution` (lines 293-573, without limits) and `GaussianARDDistribution` (lines 576-889) as they
act on whole arrays, with plates that broadcast and variables over any axes `s`.  Real numbers instead of floats.
-/

namespace Verif
open Spec

/-- `np.ones(shape)` times a number -/
def npFull (a : ℝ) (s : List Nat) : Arr ℝ := ⟨s, fun _ => a⟩

/-! ### GaussianDistribution -/

/-- `compute_phi_from_parents`, lines 377-394, of the moments `u[0]` and `u[2]` -/
noncomputable def gaussianPhiArr (u0 u2 : Arr ℝ) : Arr ℝ × Arr ℝ := (u0, npScaleBy (-0.5) u2)

/-- `compute_moments_and_cgf`, lines 397-446 -/
noncomputable def gaussianMomentsArr (s : List Nat) (phi0 phi1 : Arr ℝ) : Except PyErr (Arr ℝ × Arr ℝ × Arr ℝ) := do
  let L ← cholAxes (npScaleBy (-2) phi1) s.length
  if phi0.shape.length = 0 then throw .indexError
  let Cov ← cholInvAxes L s.length
  let mu ← cholSolveAxes L phi0 s.length
  let ip ← linInner [mu, phi0] s.length
  let ld ← cholLogdetAxes L s.length
  let g ← npAdd (npScaleBy (-0.5) ip) (npScaleBy 0.5 ld)
  let u1 ← npAdd Cov (← linOuter mu mu s.length)
  return (mu, u1, g)

/-- `compute_fixed_moments_and_f`, lines 466-486; `f` is a number -/
noncomputable def gaussianFixedArr (s : List Nat) (x : Arr ℝ) : Except PyErr ((Arr ℝ × Arr ℝ) × ℝ) := do
  if x.shape.length = 0 then throw .indexError
  let k := axisLen x.shape 0
  let xx ← linOuter x x s.length
  return ((x, xx), -(k : ℝ) / 2 * Real.log (2 * Real.pi))

/-- `compute_gradient`, lines 534-554, and 869-889 of `GaussianARDDistribution` -/
noncomputable def gaussianGradientArr (ndim : Nat) (g0 g1 x xx : Arr ℝ) : Except PyErr (Arr ℝ × Arr ℝ) := do
  let x_x ← linOuter x x ndim
  let Cov ← npSub xx x_x
  let cov_g0 ← linMvdot Cov g0 ndim
  let cov_g0_x ← linOuter cov_g0 x ndim
  let g1_x ← linMvdot g1 x ndim
  let cov_g1_x ← linMvdot Cov g1_x ndim
  let d0 ← npAdd cov_g0 (npScaleBy 2 cov_g1_x)
  let tr ← linTranspose cov_g0_x ndim
  let t1 ← npAdd cov_g0_x tr
  let xgx ← mmDot xx (← mmDot g1 xx ndim) ndim
  let t2 ← npAdd t1 (npScaleBy 2 xgx)
  let ip ← linInner [g1_x, x] ndim
  let t3 ← npMul (npScaleBy 2 x_x) (addTrailingAxes ip (2 * ndim))
  let d1 ← npSub t2 t3
  return (d0, d1)

/-- one call of `scipy.linalg.solve_triangular(U, b, trans='N', lower=False)` -/
noncomputable def triSolveVec {D : Nat} (U : Matrix (Fin D) (Fin D) ℝ) (b : Nat → ℝ) (d : Nat) : ℝ :=
  if h : d < D then U⁻¹.mulVec (fun j => b j) ⟨d, h⟩ else 0

/-- the loop of `linalg.solve_triangular`, `linalg.py` lines 247-294 -/
noncomputable def solveTriLoop (U B : Arr ℝ) (D : Nat) : Except PyErr (Arr ℝ) :=
  let plates := U.shape.take (U.shape.length - 2)
  cholSolvePlates triSolveVec ⟨plates, fun p => triu (matAt U D (restrict plates p))⟩ B

/-- `linalg.solve_triangular(U, B, ndim)`, lines 244-294 -/
noncomputable def solveTriAxes (U B : Arr ℝ) (ndim : Nat) : Except PyErr (Arr ℝ) :=
  if ndim ≠ 1 then .error .notImplemented else solveTriLoop U B (axisLen U.shape 0)

/-- `random`, lines 557-573; `z` is the draw of `np.random.randn(*(plates + shape))` -/
noncomputable def gaussianRandomArr (s : List Nat) (phi0 phi1 z : Arr ℝ) : Except PyErr (Arr ℝ) := do
  let U ← cholAxes (npScaleBy (-2) phi1) s.length
  let mu ← cholSolveAxes U phi0 s.length
  let z ← solveTriAxes U z s.length
  npAdd mu z

/-! ### GaussianARDDistribution -/

/-- `compute_message_to_parent`, lines 607-638 -/
noncomputable def ardMessageArr (s : List Nat) (index : Nat) (u0 u1 : Arr ℝ) : Except PyErr (Arr ℝ × Arr ℝ × Arr ℝ × Arr ℝ) := do
  if index ≠ 0 then throw .valueError
  let x2 ← getDiagAxes u1 s.length 0
  return (u0, npScaleBy (-0.5) (npFull 1 s), npScaleBy (-0.5) x2, npScaleBy 0.5 (npFull 1 s))

/-- `compute_weights_to_parent`, lines 641-647 -/
def ardWeightsArr (s : List Nat) (index : Nat) (w : Arr ℝ) : Except PyErr (Arr ℝ) :=
  if index ≠ 0 then .error .indexError else .ok (addTrailingAxes w s.length)

/-- `compute_phi_from_parents`, lines 650-672, of the moments `u[0]` and `u[2]` -/
noncomputable def ardPhiArr (s : List Nat) (u0 u2 : Arr ℝ) : Except PyErr (Arr ℝ × Arr ℝ) := do
  let phi1 := npScaleBy (-0.5) u2
  if s.length > 0 then
    let phi0 ← npMul (npFull 1 s) u0
    let phi1 ← npMul (npFull 1 s) phi1
    let phi1 ← diagAxes phi1 s.length
    return (phi0, phi1)
  else
    let phi1 ← diagAxes phi1 s.length
    return (u0, phi1)

/-- `compute_moments_and_cgf`, lines 674-711; `np.einsum('...i,...i', u0, phi0)` adds up the products over the last axis, as
`linalg.inner` does -/
noncomputable def ardMomentsArr (s : List Nat) (phi0 phi1 : Arr ℝ) : Except PyErr (Arr ℝ × Arr ℝ × Arr ℝ) := do
  if s.length = 0 then
    let u0 ← npMap2 (fun a b => -a / (2 * b)) phi0 phi1
    let u1 ← npMap2 (fun a b => a ^ 2 - 1 / (2 * b)) u0 phi1
    let ip ← npMap2 (fun a b => -0.5 * a * b) u0 phi0
    let g ← npAdd ip ⟨phi1.shape, fun c => 0.5 * Real.log (-2 * phi1.get c)⟩
    return (u0, u1, g)
  else
    let D := s.prod
    let phi0 ← npReshape phi0 (phi0.shape.take (phi0.shape.length - s.length) ++ [D])
    let phi1 ← npReshape phi1 (phi1.shape.take (phi1.shape.length - 2 * s.length) ++ [D, D])
    let L ← cholAxes (npScaleBy (-2) phi1) 1
    let Cov ← cholInvAxes L 1
    let u0 ← cholSolveAxes L phi0 1
    let u1 ← npAdd (← linOuter u0 u0 1) Cov
    let ip ← linInner [u0, phi0] 1
    let ld ← cholLogdetAxes L 1
    let g ← npAdd (npScaleBy (-0.5) ip) (npScaleBy 0.5 ld)
    let u0 ← npReshape u0 (u0.shape.take (u0.shape.length - 1) ++ s)
    let u1 ← npReshape u1 (u1.shape.take (u1.shape.length - 2) ++ s ++ s)
    return (u0, u1, g)

/-- `compute_cgf_from_parents`, lines 714-738, of the moments `u[1]` and `u[3]` -/
noncomputable def ardCgfArr (s : List Nat) (u1 u3 : Arr ℝ) : Except PyErr (Arr ℝ) := do
  if s.length > 0 then
    let a ← sumMultiply [u1, npFull 1 s] (.seq (lastAxes s.length)) true false
    let b ← sumMultiply [u3, npFull 1 s] (.seq (lastAxes s.length)) true false
    npAdd (npScaleBy (-0.5) a) (npScaleBy 0.5 b)
  else npAdd (npScaleBy (-0.5) u1) (npScaleBy 0.5 u3)

/-- `compute_fixed_moments_and_f`, lines 740-747 -/
noncomputable def ardFixedArr (s : List Nat) (x : Arr ℝ) : Except PyErr ((Arr ℝ × Arr ℝ) × ℝ) := do
  if s.length > 0 ∧ trailingShape x.shape s.length ≠ s then throw .valueError
  let k := s.prod
  let xx ← linOuter x x s.length
  return ((x, xx), -(k : ℝ) / 2 * Real.log (2 * Real.pi))

/-- `np.reshape(phi1, np.shape(phi1)[:-2*D] + D*(1,))` if `D > 0`, lines 787-791 -/
def ardOneMatrix (n : Nat) (phi1 : Arr ℝ) : Except PyErr (Arr ℝ) :=
  if n > 0 then npReshape phi1 (phi1.shape.take (phi1.shape.length - 2 * n) ++ List.replicate n 1) else .ok phi1

/-- the first branch of `random`, lines 784-798, for variables of one element: `z` is the draw of
`np.random.randn(*(plates + dims))` -/
noncomputable def ardRandomOne (s : List Nat) (phi0 phi1 z : Arr ℝ) : Except PyErr (Arr ℝ) := do
  let phi1 ← ardOneMatrix s.length phi1
  let var : Arr ℝ := ⟨phi1.shape, fun c => -0.5 / phi1.get c⟩
  let std : Arr ℝ := ⟨var.shape, fun c => √(var.get c)⟩
  let mu ← npMul var phi0
  let sz ← npMul std z
  npAdd mu sz

/-- the second branch of `random`, lines 799-821, for variables of more than one element: `z` is the draw of
`np.random.randn(*(plates + (N,)))` -/
noncomputable def ardRandomArr (s plates : List Nat) (phi0 phi1 z : Arr ℝ) : Except PyErr (Arr ℝ) := do
  let N := s.prod
  let phi1 ← npReshape phi1 (phi1.shape.take (phi1.shape.length - 2 * s.length) ++ [N, N])
  let U ← cholAxes (npScaleBy (-2) phi1) 1
  let phi0 ← npReshape phi0 (phi0.shape.take (phi0.shape.length - s.length) ++ [N])
  let mu ← cholSolveAxes U phi0 1
  let z ← solveTriAxes U z 1
  let x ← npAdd mu z
  npReshape x (plates ++ s)

end Verif
