import Verif.Model.GammaArrays
import Verif.Model.SumMultiplyNode
import Verif.Model.ChainArrays
import Verif.Model.EuclideanGradient

/-!
# Model of the rotations and translations of Gaussian nodes on arrays, `gaussian.py`

`_GaussianTemplate.translate` lines 1288-1343, `Gaussian.rotate` 1451-1494 (without `Q`), `GaussianARD.rotate` 1693-1741,
`GaussianARD.rotate_plates` 1743-1774, `GaussianGamma.translate` 1850-1897, `GaussianGamma.rotate` 1900-1945 and the functions on arrays of lines 2561-2709 (`reshape_gaussian_array`, which nothing uses, is left out).

Simplifications: real numbers; the `debug` branches, which recompute and compare, are left out; `self.g -= x` is a plain subtraction;
what a method has stored before it raises is not followed.  `np.einsum` takes less than 52 axes.
-/

namespace Verif
open Spec

/-- `list(range(k, 0, -1))` -/
def downTo (k : Nat) : List Nat := (List.range k).reverse.map (· + 1)

/-- `np.einsum(X1, [Ellipsis] + l1, ..., [Ellipsis] + out)` (NumPy's documented meaning): the axes in place of the ellipses are
broadcast to each other, aligned from the right -/
def npEinsumEll (ops : List (Arr ℝ × List Nat)) (out : List Nat) : Except PyErr (Arr ℝ) :=
  let b := (ops.flatMap (·.2)).foldl max 0 + 1
  npEinsum (ops.map fun op => (op.1, plateLabels b (op.1.shape.length - op.2.length) ++ op.2))
    (plateLabels b ((ops.map fun op => op.1.shape.length - op.2.length).foldl max 0) ++ out)

/-- the call of `np.einsum` in lines 2590-2598, 2619-2627 and 2663-2671 -/
def rotateEinsum (X R : Arr ℝ) (k : Nat) : Except PyErr (Arr ℝ) :=
  npEinsumEll [(R, [k + 1, k]), (X, downTo k)] ((k + 1) :: downTo (k - 1))

/-- the checks of `axis` and `abs(axis)` after it has been made negative, e.g. lines 2654-2661 -/
def axisBack (axis : Int) (ndim : Nat) : Except PyErr Nat :=
  if axis < -(ndim : Int) ∨ axis ≥ ndim then .error .valueError
  else .ok (if axis ≥ 0 then axis - ndim else axis).natAbs

/-- `rotate_mean(mu, R, axis, ndim)`, lines 2646-2673 -/
def rotateMeanArr (mu R : Arr ℝ) (axis : Int) (ndim : Nat) : Except PyErr (Arr ℝ) := do
  rotateEinsum mu R (← axisBack axis ndim)

/-- `left_rotate_covariance`, lines 2573-2600 -/
def leftRotateArr (Cov R : Arr ℝ) (axis : Int) (ndim : Nat) : Except PyErr (Arr ℝ) := do
  rotateEinsum Cov R (ndim + (← axisBack axis ndim))

/-- `right_rotate_covariance`, lines 2602-2629 -/
def rightRotateArr (Cov R : Arr ℝ) (axis : Int) (ndim : Nat) : Except PyErr (Arr ℝ) := do
  rotateEinsum Cov R (← axisBack axis ndim)

/-- `rotate_covariance`, lines 2631-2644 -/
def rotateCovArr (Cov R : Arr ℝ) (axis : Int) (ndim : Nat) : Except PyErr (Arr ℝ) := do
  let Cov ← leftRotateArr Cov R axis ndim
  rightRotateArr Cov R axis ndim

/-- `transpose_covariance(Cov, ndim)`, lines 2561-2571 -/
def transposeCovArr (Cov : Arr ℝ) (ndim : Nat) : Except PyErr (Arr ℝ) :=
  npEinsumEll [(Cov, downTo (2 * ndim))] (downTo ndim ++ (downTo (2 * ndim)).take ndim)

/-- `np.einsum('...ij,...j->...i', L, b)` -/
noncomputable def einsumMatVec (L b : Arr ℝ) : Except PyErr (Arr ℝ) := npEinsumEll [(L, [2, 1]), (b, [1])] [2]

/-- `matrix_dot_vector(A, x, ndim)`, lines 2696-2709, with `array_to_vector`, `array_to_matrix` and `vector_to_array`; `ndim` is a
natural number -/
noncomputable def matrixDotVector (A x : Arr ℝ) (ndim : Nat) : Except PyErr (Arr ℝ) := do
  if ndim = 0 then return ← npMul A x
  let dimsX := trailingShape x.shape ndim
  let DA := (trailingShape A.shape ndim).prod
  let A ← npReshape A (A.shape.take (A.shape.length - 2 * ndim) ++ [DA, DA])
  let x ← npReshape x (x.shape.take (x.shape.length - ndim) ++ [(trailingShape x.shape ndim).prod])
  let y ← einsumMatVec A x
  npReshape y (y.shape.take (y.shape.length - 1) ++ dimsX)

/-! ### the nodes -/

/-- what a Gaussian node stores: `self.phi`, `self.u` and `self.g` -/
structure GaussArrays where
  phi0 : Arr ℝ
  phi1 : Arr ℝ
  u0 : Arr ℝ
  u1 : Arr ℝ
  g : Arr ℝ

/-- `X.T` -/
def npT (X : Arr ℝ) : Arr ℝ :=
  ⟨X.shape.reverse, fun c => X.get fun k => if k < X.shape.length then c (X.shape.length - 1 - k) else c k⟩

/-- `np.linalg.slogdet(R)[1]`; `Real.log` is the logarithm of the absolute value -/
noncomputable def npSlogdet (R : Arr ℝ) : Arr ℝ :=
  ⟨R.shape.take (R.shape.length - 2), fun p => Real.log (matAt R (axisLen R.shape 0) p).det⟩

/-- `inv` if it is given, otherwise `np.linalg.inv(R)` -/
noncomputable def invOr (inv : Option (Arr ℝ)) (R : Arr ℝ) : Except PyErr (Arr ℝ) :=
  match inv with
  | some X => .ok X
  | none => invAxes R 1

/-- `logdet` if it is given, otherwise `np.linalg.slogdet(R)[1]` -/
noncomputable def logdetOr (logdet : Option (Arr ℝ)) (R : Arr ℝ) : Arr ℝ := logdet.getD (npSlogdet R)

/-- `GaussianARD.rotate(R, inv, logdet, axis)`, lines 1693-1730; `dims[0]` is `s` -/
noncomputable def ardRotateArr (s : List Nat) (R : Arr ℝ) (inv logdet : Option (Arr ℝ)) (axis : Int) (st : GaussArrays) :
    Except PyErr GaussArrays := do
  let ndim := s.length
  let invR ← invOr inv R
  let logdetR := logdetOr logdet R
  let phi0 ← rotateMeanArr st.phi0 (npT invR) axis ndim
  let phi1 ← rotateCovArr st.phi1 (npT invR) axis ndim
  let u0 ← rotateMeanArr st.u0 R axis ndim
  let u1 ← rotateCovArr st.u1 R axis ndim
  let k ← axisBack axis ndim
  let g ← npSub st.g (npScaleBy ((s.eraseIdx (s.length - k)).prod : ℝ) logdetR)
  return ⟨phi0, phi1, u0, u1, g⟩

/-- `Gaussian.rotate(R, inv, logdet)`, lines 1451-1494, without `Q` -/
noncomputable def gaussianRotateArr (s : List Nat) (R : Arr ℝ) (inv logdet : Option (Arr ℝ)) (st : GaussArrays) :
    Except PyErr GaussArrays := do
  if s.length ≠ 1 then throw .notImplemented
  let invR ← invOr inv R
  let logdetR := logdetOr logdet R
  let phi0 ← linMvdot (npT invR) st.phi0 1
  let phi1 ← dotAll [npT invR, st.phi1, invR]
  let u0 ← linMvdot R st.u0 1
  let u1 ← dotAll [R, st.u1, npT R]
  let g ← npSub st.g logdetR
  return ⟨phi0, phi1, u0, u1, g⟩

/-- `_GaussianTemplate.translate(b)`, lines 1288-1331 -/
noncomputable def translateArr (plates s : List Nat) (b : Arr ℝ) (st : GaussArrays) : Except PyErr GaussArrays := do
  let ndim := s.length
  if ndim > 0 ∧ trailingShape b.shape ndim ≠ s then throw .valueError
  let x := st.u0
  let xb ← linOuter x b ndim
  let bx ← linTranspose xb ndim
  let bb ← linOuter b b ndim
  let uh0 ← npAdd st.u0 b
  let t1 ← npAdd st.u1 xb
  let t2 ← npAdd t1 bx
  let uh1 ← npAdd t2 bb
  let Lambda := npScaleBy (-2) st.phi1
  let Lb ← linMvdot Lambda b ndim
  let i1 ← linInner [b, Lb] ndim
  let i2 ← linInner [x, Lb] ndim
  let dg ← npAdd i1 (npScaleBy 2 i2)
  let phih0 ← npAdd st.phi0 Lb
  checkShape plates [s, s ++ s] [uh0, uh1] true
  checkShape plates [s, s ++ s] [phih0, st.phi1] true
  let g ← npAdd st.g (npScaleBy (-0.5) dg)
  return ⟨phih0, st.phi1, uh0, uh1, g⟩

/-- the check of `plate_axis` in `rotate_plates`, lines 1755-1759, and `-plate_axis` -/
def plateAxisBack (plateAxis : Int) (n : Nat) : Except PyErr Nat :=
  let a := if plateAxis ≥ 0 then plateAxis - n else plateAxis
  if a < -(n : Int) ∨ a ≥ 0 then .error .valueError else .ok a.natAbs

/-- `GaussianARD.rotate_plates(Q, plate_axis)`, lines 1743-1774.  The node is not observed: `_update_moments_and_cgf` stores what
`compute_moments_and_cgf` returns. -/
noncomputable def rotatePlatesArr (plates s : List Nat) (Q : Arr ℝ) (plateAxis : Int) (st : GaussArrays) :
    Except PyErr GaussArrays := do
  let ndim := s.length
  let k ← plateAxisBack plateAxis plates.length
  let u0 ← rotateMeanArr st.u0 Q 0 (ndim + k)
  let colSum ← npSumAxis Q (Q.shape.length - 1)
  let sumQ := addTrailingAxes colSum (2 * ndim + k - 1)
  let phi1 ← npMul ⟨sumQ.shape, fun c => sumQ.get c ^ (-2 : ℤ)⟩ st.phi1
  let phi0 := npScaleBy (-2) (← matrixDotVector phi1 u0 ndim)
  let (m0, m1, g) ← ardMomentsArr s phi0 phi1
  return ⟨phi0, phi1, m0, m1, g⟩

/-- what a Gaussian-gamma node stores -/
structure GammaArraysState where
  phi : Arr4
  u : Arr4
  g : Arr ℝ

/-- `np.einsum('...ij,...i,...j->...', L, b, x)` -/
noncomputable def einsumQuad (L b x : Arr ℝ) : Except PyErr (Arr ℝ) := npEinsumEll [(L, [2, 1]), (b, [2]), (x, [1])] []

/-- `dims` of a Gaussian-gamma node -/
def ggDims (s : List Nat) : List (List Nat) := [s, s ++ s, [], []]

def Arr4.list (x : Arr4) : List (Arr ℝ) := [x.1, x.2.1, x.2.2.1, x.2.2.2]

/-- `GaussianGamma.translate(b)`, lines 1850-1885 -/
noncomputable def ggTranslateArr (plates s : List Nat) (b : Arr ℝ) (st : GammaArraysState) : Except PyErr GammaArraysState := do
  if s.length ≠ 1 then throw .notImplemented
  let tau := st.u.2.2.1
  let tau1 := addTrailingAxes tau 1
  let tau2 := addTrailingAxes tau 2
  let x ← npDiv st.u.1 tau1
  let xb ← linOuter x b 1
  let bx ← linTranspose xb 1
  let bb ← linOuter b b 1
  let t1 ← npMul tau1 b
  let uh0 ← npAdd st.u.1 t1
  let t2 ← npAdd xb bx
  let t3 ← npAdd t2 bb
  let t4 ← npMul tau2 t3
  let uh1 ← npAdd st.u.2.1 t4
  let Lambda := npScaleBy (-2) st.phi.2.1
  let q1 ← einsumQuad Lambda b b
  let q2 ← einsumQuad Lambda b x
  let t5 ← npAdd q1 (npScaleBy 2 q2)
  let dtau := npScaleBy (-0.5) t5
  let lb ← einsumMatVec Lambda b
  let phih0 ← npAdd st.phi.1 lb
  let phih2 ← npAdd st.phi.2.2.1 dtau
  let uh : Arr4 := (uh0, uh1, st.u.2.2.1, st.u.2.2.2)
  let phih : Arr4 := (phih0, st.phi.2.1, phih2, st.phi.2.2.2)
  checkShape plates (ggDims s) (Arr4.list uh) true
  checkShape plates (ggDims s) (Arr4.list phih) true
  return ⟨phih, uh, st.g⟩

/-- `GaussianGamma.rotate(R, inv, logdet)`, lines 1900-1933 -/
noncomputable def ggRotateArr (plates s : List Nat) (R : Arr ℝ) (inv logdet : Option (Arr ℝ)) (st : GammaArraysState) :
    Except PyErr GammaArraysState := do
  if s.length ≠ 1 then throw .notImplemented
  let invR ← invOr inv R
  let logdetR := logdetOr logdet R
  let uh0 ← rotateMeanArr st.u.1 R (-1) 1
  let uh1 ← rotateCovArr st.u.2.1 R (-1) 1
  let phih0 ← rotateMeanArr st.phi.1 (npT invR) (-1) 1
  let phih1 ← rotateCovArr st.phi.2.1 (npT invR) (-1) 1
  let uh : Arr4 := (uh0, uh1, st.u.2.2.1, st.u.2.2.2)
  let phih : Arr4 := (phih0, phih1, st.phi.2.2.1, st.phi.2.2.2)
  checkShape plates (ggDims s) (Arr4.list uh) true
  checkShape plates (ggDims s) (Arr4.list phih) true
  let g ← npSub st.g logdetR
  return ⟨phih, uh, g⟩

end Verif
