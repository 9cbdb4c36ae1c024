import Verif.Model.FlattenAxes

/-!
# Model of the products and diagonals of `linalg.py` and `misc.py` for arrays of matrices

`outer`, `transpose`, `inner` and `mvdot` are in `Model/Linalg.lean`.  Dense arrays of real numbers.
-/

namespace Verif
open Spec

/-- `misc.identity(*shape)`, `misc.py` lines 478-479: without arguments `np.prod(())` is the float `1.0`, which `np.identity`
does not take -/
def identityAxes (s : List Nat) : Except PyErr (Arr ℝ) := do
  let n ← prodSize s
  npReshape ⟨[n, n], fun c => if c 1 = c 0 then 1 else 0⟩ (s ++ s)

/-- `misc.atleast_nd(X, d)`, lines 298-302 -/
def atleastAxes (X : Arr ℝ) (d : Nat) : Arr ℝ :=
  ⟨List.replicate (d - X.shape.length) 1 ++ X.shape, X.get⟩

/-- `misc.diag(X, ndim)`, lines 1253-1272.  `add_axes` puts new unit axes at the same place again and again, here at the end. -/
def diagAxes (X : Arr ℝ) (ndim : Nat) : Except PyErr (Arr ℝ) := do
  let X := atleastAxes X ndim
  if ndim > 0 then
    let I ← identityAxes (trailingShape X.shape ndim)
    npMul I (npInsertAxes X 0 ndim)
  else return X

/-- `misc.make_diag(X, ndim, ndim_from)`, lines 1160-1204 -/
def makeDiagAxes (X : Arr ℝ) (ndim ndimFrom : Nat) : Except PyErr (Arr ℝ) := do
  if ndimFrom > ndim then throw .valueError
  if ndim = 0 then return X
  if X.shape.length < 2 * ndimFrom then throw .valueError
  if ndimFrom > 0 ∧ trailingShape X.shape ndimFrom ≠ (trailingShape X.shape (2 * ndimFrom)).take ndimFrom then throw .valueError
  if ndim = ndimFrom then return X
  let X := atleastAxes X (ndim + ndimFrom)
  let I ← identityAxes ((trailingShape X.shape (ndimFrom + ndim)).take ndim)
  npMul I (npInsertAxes X ndimFrom (ndim - ndimFrom))

/-- the labels of `np.einsum` in `misc.get_diag`, lines 1234-1248: the axes of the input -/
def getDiagLabels (nPlate nDiag nTo : Nat) : List Nat :=
  let axes := List.range (nPlate + nDiag + nTo + nTo)
  let axesPlates := axes.take nPlate
  let axesDiag := (axes.drop nPlate).take nDiag
  let axesDims1 := (axes.drop (nPlate + nDiag)).take nTo
  let axesDims2 := axes.drop (nPlate + nDiag + nTo)
  axesPlates ++ axesDiag ++ axesDims1 ++ axesDiag ++ axesDims2

/-- `misc.get_diag(X, ndim, ndim_to)`, lines 1207-1250 -/
def getDiagAxes (X : Arr ℝ) (ndim ndimTo : Nat) : Except PyErr (Arr ℝ) := do
  if ndimTo > ndim then throw .valueError
  if ndim = 0 then return X
  if X.shape.length < 2 * ndim then throw .valueError
  if trailingShape X.shape ndim ≠ (trailingShape X.shape (2 * ndim)).take ndim then throw .valueError
  if ndim = ndimTo then return X
  npEinsum [(X, getDiagLabels (X.shape.length - 2 * ndim) (ndim - ndimTo) ndimTo)]
    (List.range (X.shape.length - ndim + ndimTo))

/-- `misc.safe_indices(inds, shape)`, lines 969-991 -/
def safeIndices (inds shape : List Nat) : List Nat :=
  let m := min inds.length shape.length
  List.zipWith (fun i d => min i (d - 1)) (inds.drop (inds.length - m)) (shape.drop (shape.length - m))

/-- element `(m, n)` of `np.dot(A[i], B[j])` for the matrices at `i` and `j` -/
def dotAt (A B : Arr ℝ) (i j : List Nat) (m n : Nat) : ℝ :=
  ∑ k ∈ Finset.range (axisLen A.shape 0), A.get (matCoord m k (coord i)) * B.get (matCoord k n (coord j))

/-- `Y[i] = np.dot(A[safe_indices(i, A_plates)], B[safe_indices(i, B_plates)])`, `linalg.py` lines 353-355 -/
def dotStep (A B : Arr ℝ) (Y : Arr ℝ) (i : List Nat) : Except PyErr (Arr ℝ) :=
  if axisLen A.shape 0 ≠ axisLen B.shape 1 then .error .valueError else .ok
    { Y with get := fun c => if ∀ k < i.length, c (k + 2) = coord i k then
        dotAt A B (safeIndices i (A.shape.take (A.shape.length - 2))) (safeIndices i (B.shape.take (B.shape.length - 2))) (c 1) (c 0)
      else Y.get c }

/-- `_dot(A, B)`, lines 337-356; `B` has at least two axes -/
def dotTwo (A B : Arr ℝ) : Except PyErr (Arr ℝ) := do
  if A.shape.length < 2 then throw .indexError
  let aPlates := A.shape.take (A.shape.length - 2)
  let bPlates := B.shape.take (B.shape.length - 2)
  let plates ← broadcastedShape [aPlates, bPlates]
  if plates = [] then
    if axisLen A.shape 0 ≠ axisLen B.shape 1 then throw .valueError
    return ⟨[axisLen A.shape 1, axisLen B.shape 0], fun c => dotAt A B [] [] (c 1) (c 0)⟩
  (nestedIterator plates).foldlM (dotStep A B) ⟨plates ++ [axisLen A.shape 1, axisLen B.shape 0], fun _ => 0⟩

/-- one round of the loop of `dot`, lines 370-376 -/
def dotRound (Y X : Arr ℝ) : Except PyErr (Arr ℝ) := do
  if Y.shape.length < 2 ∨ X.shape.length < 2 then throw .valueError
  if axisLen Y.shape 0 ≠ axisLen X.shape 1 then throw .valueError
  dotTwo Y X

/-- `dot(*arrays)`, lines 358-380; of nothing the number 0 -/
def dotAll : List (Arr ℝ) → Except PyErr (Arr ℝ)
  | [] => .ok ⟨[], fun _ => 0⟩
  | X :: Xs => Xs.foldlM dotRound X

/-- `tracedot(A, B)`, lines 382-386: `np.einsum('...ij,...ji->...', A, B)`, with NumPy's documented meaning -/
def traceDot (A B : Arr ℝ) : Except PyErr (Arr ℝ) := do
  if A.shape.length < 2 ∨ B.shape.length < 2 then throw .valueError
  let plates ← broadcastedShape [A.shape.take (A.shape.length - 2), B.shape.take (B.shape.length - 2)]
  let i ← einsumUnify [axisLen A.shape 1, axisLen B.shape 0]
  let j ← einsumUnify [axisLen A.shape 0, axisLen B.shape 1]
  return ⟨plates, fun p => ∑ m ∈ Finset.range i, ∑ n ∈ Finset.range j, A.at (matCoord m n p) * B.at (matCoord n m p)⟩

/-- `np.linalg.inv(A)` of one matrix; a singular matrix raises `LinAlgError` -/
noncomputable def npInv {D : Nat} (A : Matrix (Fin D) (Fin D) ℝ) : Except PyErr (Matrix (Fin D) (Fin D) ℝ) :=
  open Classical in if A.det = 0 then .error .exception else .ok A⁻¹

/-- `np.linalg.inv` of the matrices on the plates -/
noncomputable def npInvAll (A : Arr ℝ) (D : Nat) (plates : List Nat) : Except PyErr (Arr ℝ) := do
  let _ ← (indices plates).mapM fun i => npInv (matAt A D (coord i))
  return ofMats plates fun p => (matAt A D p)⁻¹

/-- `inv(A, ndim)`, lines 389-404; the elements of `A` are not zero if `ndim = 0` -/
noncomputable def invAxes (A : Arr ℝ) (ndim : Nat) : Except PyErr (Arr ℝ) := do
  if ndim = 0 then return ⟨A.shape, fun c => 1 / A.get c⟩
  if ndim = 1 then
    if A.shape.length < 2 ∨ axisLen A.shape 0 ≠ axisLen A.shape 1 then throw .exception
    return ← npInvAll A (axisLen A.shape 0) (A.shape.take (A.shape.length - 2))
  throw .notImplemented

/-- `mmdot(A, B, ndim)`, lines 430-442 -/
def mmDot (A B : Arr ℝ) (ndim : Nat) : Except PyErr (Arr ℝ) := do
  if ndim = 0 then npMul A B
  else if ndim = 1 then dotTwo A B
  else throw .exception

/-- `logdet_chol(U)` of an array of square matrices, lines 225-228 -/
noncomputable def logdetChol (U : Arr ℝ) : Arr ℝ :=
  ⟨U.shape.take (U.shape.length - 2),
    fun p => 2 * ∑ i ∈ Finset.range (axisLen U.shape 0), Real.log (U.get (matCoord i i p))⟩

/-- `logdet_tri(R)` of an array of square matrices, lines 233-237: `np.sum` without an axis adds all elements up -/
noncomputable def logdetTri (R : Arr ℝ) : Arr ℝ :=
  ⟨[], fun _ => ((indices (R.shape.take (R.shape.length - 2))).map fun p =>
    ∑ i ∈ Finset.range (axisLen R.shape 0), Real.log |R.get (matCoord i i (coord p))|).sum⟩

/-- `logdet_cov(C, ndim)`, lines 240-241 -/
noncomputable def logdetCov (C : Arr ℝ) (ndim : Nat) : Except PyErr (Arr ℝ) := do
  cholLogdetAxes (← cholAxes C ndim) ndim

end Verif
