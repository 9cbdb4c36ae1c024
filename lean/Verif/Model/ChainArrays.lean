import Verif.Model.Linalg
import Verif.Model.GaussianChain

/-!
# Model of the formulas of the Markov chain nodes on NumPy arrays

`bayespy/inference/vmp/nodes/gaussian_markov_chain.py`, `gamma.py` and `categorical_markov_chain.py`.  The moments of a parent are
arrays whose plate axes may have unit length instead of the full length (or be missing).  In `Model/GaussianChain` the same
formulas are stated for one plate with full tables; here they are stated for the arrays, because plate axes of the parents are
summed.

Simplification: assigning to a part of an array needs a shape that broadcasts to that part, extra leading unit axes are accepted
(NumPy accepts them in `a[...] = x` only).
-/

namespace Verif
open Spec

/-- The coordinate `l[0], l[1], ...` from the right, then the plate coordinate `p` -/
def coordL (l : List Nat) (p : Nat → Nat) : Nat → Nat := fun k => if h : k < l.length then l[k] else p (k - l.length)

/-- Insert position `t` along axis `-(k+1)` -/
def insCoord (k t : Nat) (c : Nat → Nat) : Nat → Nat := fun j => if j < k then c j else if j = k then t else c (j - 1)

/-- Leave out axis `-(k+1)` -/
def delCoord (k : Nat) (c : Nat → Nat) : Nat → Nat := fun j => if j < k then c j else c (j + 1)

/-- `np.sum(X, axis=-(k+1))` (NumPy's documented meaning); an axis out of bounds raises `AxisError`, which is a `ValueError` -/
noncomputable def npSumAxis (X : Arr ℝ) (k : Nat) : Except PyErr (Arr ℝ) :=
  if k < X.shape.length then
    .ok { shape := X.shape.eraseIdx (X.shape.length - 1 - k)
          get := fun c => ∑ t ∈ Finset.range (axisLen X.shape k), X.get (insCoord k t c) }
  else .error .valueError

/-- `np.shape(X)[:-n]` -/
def dropAxes (X : Arr ℝ) (n : Nat) : List Nat := X.shape.take (X.shape.length - n)

/-- Whether `X` broadcasts to the shape `t` (header: simplification) -/
def npFits (X : Arr ℝ) (t : List Nat) : Except PyErr Unit :=
  if ∀ k < max X.shape.length t.length, axisLen X.shape k = 1 ∨ axisLen X.shape k = axisLen t k then .ok ()
  else .error .valueError

/-- `X[..., D:]` along the last axis -/
def colsFrom (D : Nat) (X : Arr ℝ) : Arr ℝ :=
  { shape := dropAxes X 1 ++ [axisLen X.shape 0 - D], get := fun c => X.get fun k => if k = 0 then c 0 + D else c k }

/-- `X[..., D:, :]` -/
def rowsFrom (D : Nat) (X : Arr ℝ) : Arr ℝ :=
  { shape := dropAxes X 2 ++ [axisLen X.shape 1 - D, axisLen X.shape 0],
    get := fun c => X.get fun k => if k = 1 then c 1 + D else c k }

/-- `X[..., :D]` -/
def colsTo (D : Nat) (X : Arr ℝ) : Arr ℝ := { shape := dropAxes X 1 ++ [min D (axisLen X.shape 0)], get := X.get }

/-- `X[..., :D, :]` -/
def rowsTo (D : Nat) (X : Arr ℝ) : Arr ℝ :=
  { shape := dropAxes X 2 ++ [min D (axisLen X.shape 1), axisLen X.shape 0], get := X.get }

/-- `np.einsum('...ij,...j->...i', A, b)` -/
noncomputable def einsumMv (A b : Arr ℝ) : Except PyErr (Arr ℝ) := do
  let s ← broadcastedShape [dropAxes A 2, dropAxes b 1]
  let J ← einsumUnify [axisLen A.shape 0, axisLen b.shape 0]
  return { shape := s ++ [axisLen A.shape 1]
           get := fun c => ∑ j ∈ Finset.range J, A.at (insCoord 0 j c) * b.at (insCoord 0 j (delCoord 0 c)) }

/-- `compute_phi_from_parents`, lines 587-616: `phi0` with input signals.  `Λμ` has axes `(..., D)`, `u0` and `u1` are the moments of
`(A, nu)` with axes `(..., N-1, D, D+K)` and `(..., N-1, D, D+K, D+K)`, `z` are the inputs `(..., N-1, K)`. -/
noncomputable def gmcPhi0Arr (N D : Nat) (Λμ u0 u1 z : Arr ℝ) : Except PyErr (Arr ℝ) := do
  let nuB := colsFrom D u0
  let nuAB := rowsTo D (colsFrom D u1)
  let plates ← broadcastedShape [dropAxes Λμ 1, dropAxes nuB 3, dropAxes nuAB 4]
  npFits Λμ (plates ++ [D])
  let x1 ← einsumMv nuB z
  npFits x1 (plates ++ [N - 1, D])
  let x2 ← einsumMv (← npSumAxis nuAB 2) z
  npFits x2 (plates ++ [N - 1, D])
  return { shape := plates ++ [N, D]
           get := fun c => (if c 1 = 0 then Λμ.at (delCoord 1 c) else x1.at fun k => if k = 1 then c 1 - 1 else c k)
             - if c 1 < N - 1 then x2.at c else 0 }

/-- `misc.diag(X, ndim=1)`, `misc.py` lines 1253-1271: `identity(np.shape(X)[-1]) * X[..., None]` -/
def npDiag (X : Arr ℝ) : Arr ℝ :=
  { shape := (if X.shape.length = 0 then [1] else X.shape) ++ [axisLen X.shape 0]
    get := fun c => if c 1 = c 0 then X.at (delCoord 0 c) else 0 }

/-- lines 595-597 and 602-622: `phi1` -/
noncomputable def gmcPhi1Arr (N D : Nat) (Λ u1 u2 : Arr ℝ) : Except PyErr (Arr ℝ) := do
  let nuAA := rowsTo D (colsTo D u1)
  let plates ← broadcastedShape [dropAxes Λ 2, dropAxes nuAA 4]
  npFits Λ (plates ++ [D, D])
  npFits (npDiag u2) (plates ++ [N - 1, D, D])
  let s ← npSumAxis nuAA 2
  npFits s (plates ++ [N - 1, D, D])
  return { shape := plates ++ [N, D, D]
           get := fun c => (if c 2 = 0 then -0.5 * Λ.at (delCoord 2 c)
               else -0.5 * (npDiag u2).at fun k => if k = 2 then c 2 - 1 else c k)
             + if c 2 < N - 1 then -0.5 * s.at c else 0 }

/-- lines 597 and 624-625: `phi2` -/
def gmcPhi2Arr (N D : Nat) (u0 : Arr ℝ) : Except PyErr (Arr ℝ) := do
  let nuA := colsTo D u0
  let plates ← broadcastedShape [dropAxes nuA 3]
  let t ← linTranspose nuA 1
  npFits t (plates ++ [N - 1, D, D])
  return { shape := plates ++ [N - 1, D, D], get := t.at }

/-- The part of `_compute_cgf_for_gaussian_markov_chain` (lines 259-265) that depends on the innovation noise; `np.shape(x)[-2]` of
an array without axes raises `IndexError`. -/
noncomputable def gmcCgfNu (N : Nat) (u3 : Arr ℝ) : Except PyErr (Arr ℝ) :=
  if u3.shape.length = 1 then do
    let s ← npSumAxis u3 0
    return { shape := s.shape, get := fun c => 0.5 * ((N : ℝ) - 1) * s.get c }
  else if u3.shape.length = 0 then .error .indexError
  else if axisLen u3.shape 1 = 1 then do
    let s ← npSumAxis (← npSumAxis u3 0) 0
    return { shape := s.shape, get := fun c => 0.5 * ((N : ℝ) - 1) * s.get c }
  else do
    let s ← npSumAxis (← npSumAxis u3 0) 0
    return { shape := s.shape, get := fun c => 0.5 * s.get c }

/-- `compute_message_to_parent`, line 523: the second part of the message to the inputs -/
noncomputable def gmcMsgInputs1 (D : Nat) (u1 : Arr ℝ) : Except PyErr (Arr ℝ) := do
  let s ← npSumAxis (rowsFrom D (colsFrom D u1)) 2
  return { shape := s.shape, get := fun c => -0.5 * s.get c }

/-- `_GammaToDiagonalWishart.get_moments`, `gamma.py` lines 378-383.  `np.sum(u, axis=-1)` of an array without axes returns the
number. -/
noncomputable def diagWishartMoments (D : Nat) (u0 u1 : Arr ℝ) : Except PyErr (Arr ℝ × Arr ℝ) := do
  let s ← broadcastedShape [[D, D], u0.shape ++ [1]]
  let l ← if u1.shape.length = 0 then .ok u1 else npSumAxis u1 0
  return ({ shape := s, get := fun c => (if c 1 = c 0 then 1 else 0) * u0.at (delCoord 0 c) }, l)

/-- `CategoricalMarkovChainDistribution.compute_phi_from_parents`, line 119: `u_P[0] * np.ones((N-1, K, K))` -/
noncomputable def cmcPhi1Arr (N K : Nat) (P : Arr ℝ) : Except PyErr (Arr ℝ) :=
  npMul P { shape := [N - 1, K, K], get := fun _ => 1 }

/-- `np.einsum('...dikjl,...d->...ikjl', BB[..., None, :, :, :, :, :], v)`, line 1103 of the chain with varying dynamics -/
noncomputable def varyingRows (BB v : Arr ℝ) : Except PyErr (Arr ℝ) := do
  let B1 : Arr ℝ := { shape := dropAxes BB 5 ++ 1 :: BB.shape.drop (BB.shape.length - 5), get := fun c => BB.get (delCoord 5 c) }
  let s ← broadcastedShape [dropAxes B1 5, dropAxes v 1]
  let d ← einsumUnify [axisLen BB.shape 4, axisLen v.shape 0]
  return { shape := s ++ [axisLen BB.shape 3, axisLen BB.shape 2, axisLen BB.shape 1, axisLen BB.shape 0]
           get := fun c => ∑ t ∈ Finset.range d, B1.at (insCoord 4 t c) * v.at (coordL [t] fun k => c (k + 4)) }

/-! ### Moments before the first update -/

/-- The moments of a node with the given plates whose parents have no plates: leading unit axes are added to the natural
parameters, `expfamily.py` lines 229-235 -/
def priorArr (plates dims : List Nat) (x : (Nat → Nat) → ℝ) : Arr ℝ :=
  { shape := List.replicate plates.length 1 ++ dims, get := x }

/-- `WrapToGaussianGamma._compute_moments`, `gaussian.py` lines 2339-2348, for a Gaussian vector (converted by
`GaussianToGaussianGamma`) with second moments `xx` and a gamma node with mean `alpha` -/
noncomputable def wrapSecond (xx alpha : Arr ℝ) : Except PyErr (Arr ℝ) := do
  npMul xx { shape := alpha.shape ++ [1, 1], get := fun c => alpha.get fun k => c (k + 2) }

end Verif
