import Verif.Model.CholSolve
import Verif.Model.Linalg

/-!
# Model of `misc.flatten_axes`, `misc.reshape_axes` and of the Cholesky functions of `linalg.py` over several axes

`scipy.linalg.cho_factor` and `cho_solve` are modelled by their contract, as in `Model/BlockBandedSolve.lean`: the first gives
the factor in the upper triangle and leaves what was there in the lower triangle, the second uses the upper triangle only.
Dense arrays of real numbers; no `out` argument.
-/

namespace Verif
open Spec

/-- the axes of a shape, cut into blocks of the given numbers of axes -/
def splitBlocks : List Nat → List Nat → List (List Nat)
  | [], _ => []
  | n :: ns, s => s.take n :: splitBlocks ns (s.drop n)

/-- `np.prod(s)` as the length of an axis: `np.prod(())` is the float `1.0`, which `np.reshape` does not take -/
def prodSize (s : List Nat) : Except PyErr Nat :=
  if s = [] then .error .typeError else .ok s.prod

/-- `misc.flatten_axes(X, *ndims)`, `misc.py` lines 33-47 -/
def flattenAxes {α : Type} (X : Arr α) (ndims : List Nat) : Except PyErr (Arr α) := do
  if X.shape.length < ndims.sum then throw .valueError
  if ndims = [] then return X
  let i := X.shape.length - ndims.sum
  let sizes ← (splitBlocks ndims (X.shape.drop i)).mapM prodSize
  npReshape X (X.shape.take i ++ sizes)

/-- `misc.reshape_axes(X, *shapes)`, `misc.py` lines 50-60; here `np.prod(()) = 1.0` is only compared -/
def reshapeAxes {α : Type} (X : Arr α) (shapes : List (List Nat)) : Except PyErr (Arr α) := do
  if X.shape.length < shapes.length then throw .valueError
  let i := X.shape.length - shapes.length
  if X.shape.drop i ≠ shapes.map List.prod then throw .valueError
  npReshape X (X.shape.take i ++ shapes.flatten)

/-- coordinates of element `(i, j)` of the last two axes on plate `p` -/
def matCoord (i j : Nat) (p : Nat → Nat) : Nat → Nat
  | 0 => j
  | 1 => i
  | k + 2 => p k

/-- the matrix of the last two axes on plate `p` -/
def matAt (X : Arr ℝ) (D : Nat) (p : Nat → Nat) : Matrix (Fin D) (Fin D) ℝ :=
  Matrix.of fun i j => X.get (matCoord i j p)

/-- an array of numbers from an array of matrices -/
def ofMats {D : Nat} (plates : List Nat) (M : (Nat → Nat) → Matrix (Fin D) (Fin D) ℝ) : Arr ℝ :=
  ⟨plates ++ [D, D], fun c => if h : c 1 < D ∧ c 0 < D then M (fun k => c (k + 2)) ⟨c 1, h.1⟩ ⟨c 0, h.2⟩ else 0⟩

/-- `scipy.linalg.cho_factor(C)[0]`: the lower triangle is not part of the factor -/
noncomputable def choFactor {D : Nat} (C : Matrix (Fin D) (Fin D) ℝ) : Except PyErr (Matrix (Fin D) (Fin D) ℝ) := do
  let U ← chol C
  return Matrix.of fun i j => if i ≤ j then U i j else C i j

/-- what `scipy.linalg.cho_solve` uses of the factor -/
def triu {D : Nat} (U : Matrix (Fin D) (Fin D) ℝ) : Matrix (Fin D) (Fin D) ℝ :=
  Matrix.of fun i j => if i ≤ j then U i j else 0

/-- `X if ndim == 1 else misc.flatten_axes(X, ndim, ndim)` -/
def flattenMatrix (X : Arr ℝ) (ndim : Nat) : Except PyErr (Arr ℝ) :=
  if ndim = 1 then .ok X else flattenAxes X [ndim, ndim]

/-- `X if ndim == 1 else misc.reshape_axes(X, s, t)` -/
def reshapeMatrix (X : Arr ℝ) (ndim : Nat) (s t : List Nat) : Except PyErr (Arr ℝ) :=
  if ndim = 1 then .ok X else reshapeAxes X [s, t]

/-- `X if ndim == 1 else misc.flatten_axes(X, ndim)` -/
def flattenVector (X : Arr ℝ) (ndim : Nat) : Except PyErr (Arr ℝ) :=
  if ndim = 1 then .ok X else flattenAxes X [ndim]

/-- `X if ndim == 1 else misc.reshape_axes(X, s)` -/
def reshapeVector (X : Arr ℝ) (ndim : Nat) (s : List Nat) : Except PyErr (Arr ℝ) :=
  if ndim = 1 then .ok X else reshapeAxes X [s]

/-- the last `ndim` axes, `np.shape(X)[-ndim:]` -/
def trailingShape (s : List Nat) (ndim : Nat) : List Nat := s.drop (s.length - ndim)

/-- the value, if there is one -/
def okOrZero {α : Type} [Zero α] : Except PyErr α → α
  | .ok x => x
  | .error _ => 0

/-- the loop of `linalg.chol`, lines 48-59.  Every plate is factored by itself; the first matrix that is not positive definite
raises. -/
noncomputable def cholLoop (C : Arr ℝ) (D : Nat) : Except PyErr (Arr ℝ) := do
  let plates := C.shape.take (C.shape.length - 2)
  let _ ← (nestedIterator plates).mapM fun i => choFactor (matAt C D fun k => i.reverse[k]?.getD 0)
  return ofMats plates fun p => okOrZero (choFactor (matAt C D p))

/-- `linalg.chol(C, ndim)`, `linalg.py` lines 31-63 -/
noncomputable def cholAxes (C : Arr ℝ) (ndim : Nat) : Except PyErr (Arr ℝ) := do
  if ndim = 0 then return ⟨C.shape, fun c => √(C.get c)⟩
  let shape := trailingShape C.shape ndim
  let C ← flattenMatrix C ndim
  if C.shape.length < 2 then throw .indexError
  if axisLen C.shape 0 ≠ axisLen C.shape 1 then throw .valueError
  let U ← cholLoop C (axisLen C.shape 0)
  reshapeMatrix U ndim shape shape

/-- the loop of `linalg.chol_inv`, lines 183-195 -/
noncomputable def cholInvLoop (U : Arr ℝ) (D : Nat) : Arr ℝ :=
  let plates := U.shape.take (U.shape.length - 2)
  ofMats plates (cholInvPlates cholSolveM ⟨plates, fun p => triu (matAt U D p)⟩ 1).get

/-- `linalg.chol_inv(U, ndim)`, lines 174-206 -/
noncomputable def cholInvAxes (U : Arr ℝ) (ndim : Nat) : Except PyErr (Arr ℝ) := do
  if ndim = 0 then return ⟨U.shape, fun c => 1 / U.get c / U.get c⟩
  let shape := trailingShape U.shape ndim
  let U ← flattenMatrix U ndim
  reshapeMatrix (cholInvLoop U (axisLen U.shape 0)) ndim shape shape

/-- `linalg.chol_logdet(U, ndim)`, lines 209-222 -/
noncomputable def cholLogdetAxes (U : Arr ℝ) (ndim : Nat) : Except PyErr (Arr ℝ) := do
  if ndim = 0 then return ⟨U.shape, fun c => 2 * Real.log (U.get c)⟩
  let U ← flattenMatrix U ndim
  return ⟨U.shape.take (U.shape.length - 2),
    fun p => 2 * ∑ i ∈ Finset.range (axisLen U.shape 0), Real.log (U.get (matCoord i i p))⟩

/-- one call of `scipy.linalg.cho_solve`, on vectors given by numbers -/
noncomputable def choSolveVec {D : Nat} (U : Matrix (Fin D) (Fin D) ℝ) (b : Nat → ℝ) (d : Nat) : ℝ :=
  if h : d < D then cholSolve U (fun j => b j) ⟨d, h⟩ else 0

/-- the loop of `linalg.chol_solve`, lines 93-146, with the matrices of the last two axes of `U` -/
noncomputable def cholSolveLoop (U B : Arr ℝ) (D : Nat) : Except PyErr (Arr ℝ) :=
  let plates := U.shape.take (U.shape.length - 2)
  cholSolvePlates choSolveVec ⟨plates, fun p => triu (matAt U D (restrict plates p))⟩ B

/-- `linalg.chol_solve(U, b, ndim)`, lines 66-160, for vectors -/
noncomputable def cholSolveAxes (U b : Arr ℝ) (ndim : Nat) : Except PyErr (Arr ℝ) := do
  if ndim = 0 then
    let s ← broadcastedShape [b.shape, U.shape]
    return ⟨s, fun c => b.at c / U.at c / U.at c⟩
  let shape := trailingShape U.shape ndim
  let U ← flattenMatrix U ndim
  let B ← flattenVector b ndim
  let out ← cholSolveLoop U B (axisLen U.shape 0)
  reshapeVector out ndim shape

/-- `linalg.transpose(X, ndim=1)`, lines 444-450: the last two axes change places -/
def swapLast (X : Arr ℝ) : Arr ℝ :=
  ⟨X.shape.take (X.shape.length - 2) ++ [axisLen X.shape 0, axisLen X.shape 1],
    fun c => X.get (matCoord (c 0) (c 1) fun k => c (k + 2))⟩

/-- `U[...,None,:,:]` -/
def addAxis3 (X : Arr ℝ) : Arr ℝ :=
  ⟨X.shape.take (X.shape.length - 2) ++ 1 :: X.shape.drop (X.shape.length - 2),
    fun c => X.get (matCoord (c 1) (c 0) fun k => c (k + 3))⟩

/-- `linalg.chol_solve(U, b, matrix=True, ndim)`, lines 66-160 -/
noncomputable def cholSolveMatrixAxes (U b : Arr ℝ) (ndim : Nat) : Except PyErr (Arr ℝ) := do
  if ndim = 0 then
    let s ← broadcastedShape [b.shape, U.shape]
    return ⟨s, fun c => b.at c / U.at c / U.at c⟩
  let shape := trailingShape U.shape ndim
  let U ← flattenMatrix U ndim
  let shape_b := trailingShape b.shape ndim
  let B ← flattenMatrix b ndim
  let U := addAxis3 U
  let out ← cholSolveLoop U (swapLast B) (axisLen U.shape 0)
  reshapeMatrix (swapLast out) ndim shape shape_b

end Verif
