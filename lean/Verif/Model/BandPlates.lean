import Verif.Model.CholSolve
import Verif.Model.Support

/-!
# Model of `block_banded_solve` on arrays with plates

`bayespy/utils/linalg.py` lines 468-580, and the call of it in `GaussianMarkovChain`'s
`compute_moments_and_cgf`, `bayespy/inference/vmp/nodes/gaussian_markov_chain.py` lines 86-123.

`A`, `B` and `y` are whole arrays.  The arrays `V`, `C` and `x` are kept by time instance: `V n` stands for `V[..., n, :, :]`,
an array of `D × D` matrices over the plates.  Real numbers instead of floats; LAPACK by its contract as in
`Model/BlockBandedSolve.lean`; memory that was not written yet reads as zero.
-/

namespace Verif
open Spec Matrix

variable {D : Nat}

/-- `X[..., n, :, :]` -/
def timeBlock (D : Nat) (X : Arr ℝ) (n : Nat) : Arr (Matrix (Fin D) (Fin D) ℝ) :=
  { shape := X.shape.take (X.shape.length - 3)
    get := fun c => of fun i j => X.get (atLast (atLast (atLast c n) i) j) }

/-- `X[..., n, :]` -/
def timeVector (D : Nat) (X : Arr ℝ) (n : Nat) : Arr (Fin D → ℝ) :=
  { shape := X.shape.take (X.shape.length - 2)
    get := fun c d => X.get (atLast (atLast c n) d) }

/-- The value of `V[..., n, :, :]` after `V[..., n, :, :] = v` for an array `V` with the plates `plates` -/
def fillPlates {α : Type} (plates : List Nat) (v : Arr α) : Except PyErr (Arr α) :=
  if (List.range (max plates.length v.shape.length)).all fun k =>
      axisLen v.shape k = 1 || axisLen v.shape k = axisLen plates k then
    .ok { shape := plates, get := v.at }
  else .error .valueError

/-- `chol(C)`, lines 32-63: the loop factorises the matrix of each plate. -/
noncomputable def cholPlates (C : Arr (Matrix (Fin D) (Fin D) ℝ)) :
    Except PyErr (Arr (Matrix (Fin D) (Fin D) ℝ)) := do
  let _ ← (nestedIterator C.shape).mapM fun i => chol (C.get (coord i))
  return { shape := C.shape
           get := fun c => match chol (C.get c) with | .ok U => U | .error _ => 0 }

/-- `chol_solve(U, b)`, lines 66-160: the vectors make the last axis of the array in `Model/CholSolve.lean`. -/
noncomputable def cholSolveVec (U : Arr (Matrix (Fin D) (Fin D) ℝ)) (b : Arr (Fin D → ℝ)) :
    Except PyErr (Arr (Fin D → ℝ)) := do
  let b' : Arr ℝ := { shape := b.shape ++ [D], get := fun c => if h : c 0 < D then b.get (fun k => c (k + 1)) ⟨c 0, h⟩ else 0 }
  let out ← cholSolvePlates choSolveNat U b'
  return { shape := out.shape.dropLast, get := fun c d => out.get (atLast c d) }

/-- `chol_solve(U, B, matrix=True)`: `B` is transposed, so that its columns are the vectors and make another plate axis, and `U`
gets a unit axis there (lines 82-88); the result is transposed back (line 148). -/
noncomputable def cholSolveMat (U B : Arr (Matrix (Fin D) (Fin D) ℝ)) :
    Except PyErr (Arr (Matrix (Fin D) (Fin D) ℝ)) := do
  let B' : Arr ℝ := { shape := B.shape ++ [D] ++ [D]
                      get := fun c => if h : c 0 < D ∧ c 1 < D then B.get (fun k => c (k + 2)) ⟨c 0, h.1⟩ ⟨c 1, h.2⟩ else 0 }
  let U' : Arr (Matrix (Fin D) (Fin D) ℝ) := { shape := U.shape ++ [1], get := fun c => U.get fun k => c (k + 1) }
  let out ← cholSolvePlates choSolveNat U' B'
  return { shape := out.shape.dropLast.dropLast, get := fun c => of fun i j => out.get (atLast (atLast c j) i) }

/-- The arrays `V`, `C`, `x` and `ldet` -/
structure PlateBand (D : Nat) where
  V : Nat → Arr (Matrix (Fin D) (Fin D) ℝ)
  C : Nat → Arr (Matrix (Fin D) (Fin D) ℝ)
  x : Nat → Arr (Fin D → ℝ)
  ldet : Arr ℝ

/-- Lines 536-553; `pV` and `pX` are `plates_VC` and `plates_y`. -/
noncomputable def plateForward (pV pX : List Nat) (A B : Nat → Arr (Matrix (Fin D) (Fin D) ℝ)) (y : Nat → Arr (Fin D → ℝ))
    (s : PlateBand D) (n : Nat) : Except PyErr (PlateBand D) := do
  let z ← cholSolveVec (s.V n) (s.x n)
  let z ← npMap2 (fun b v => bᵀ *ᵥ v) (B n) z
  let z ← npMap2 (fun a b => a - b) (y (n + 1)) z
  let z ← fillPlates pX z
  let x := Function.update s.x (n + 1) z
  let c ← cholSolveMat (s.V n) (B n)
  let c ← fillPlates pV c
  let C := Function.update s.C n c
  let v ← npMap2 (fun b c => bᵀ * c) (B n) (C n)
  let v ← npMap2 (fun a b => a - b) (A (n + 1)) v
  let v ← fillPlates pV v
  let V := Function.update s.V (n + 1) v
  let v ← fillPlates pV ((V (n + 1)).map fun v => (0.5 : ℝ) • (v + vᵀ))
  let V := Function.update V (n + 1) v
  let v ← cholPlates (V (n + 1))
  let v ← fillPlates pV v
  let V := Function.update V (n + 1) v
  let l ← npMap2 (fun a b => a + b) s.ldet ((V (n + 1)).map cholLogdet)
  let l ← fillPlates s.ldet.shape l
  return ⟨V, C, x, l⟩

/-- Lines 560-573 -/
noncomputable def plateBackward (pV pX : List Nat) (B : Nat → Arr (Matrix (Fin D) (Fin D) ℝ)) (s : PlateBand D) (n : Nat) :
    Except PyErr (PlateBand D) := do
  let z ← npMap2 (fun b v => b *ᵥ v) (B n) (s.x (n + 1))
  let z ← npMap2 (fun a b => a - b) (s.x n) z
  let z ← cholSolveVec (s.V n) z
  let z ← fillPlates pX z
  let x := Function.update s.x n z
  let w ← npMap2 (fun v c => v * cᵀ) (s.V (n + 1)) (s.C n)
  let w ← npMap2 (fun c w => c * w) (s.C n) w
  let w ← npMap2 (fun a b => a + b) (cholInvPlates cholSolveM (s.V n) 1) w
  let w ← fillPlates pV w
  let V := Function.update s.V n w
  let c ← npMap2 (fun c v => -(c * v)) (s.C n) (V (n + 1))
  let c ← fillPlates pV c
  let C := Function.update s.C n c
  let w ← fillPlates pV ((V n).map fun v => (0.5 : ℝ) • (v + vᵀ))
  let V := Function.update V n w
  return ⟨V, C, x, s.ldet⟩

/-- Lines 512-575: plates, forward and backward recursions over `N` time instances -/
noncomputable def bandPlates (N : Nat) (pA pB pY : List Nat) (A B : Nat → Arr (Matrix (Fin D) (Fin D) ℝ))
    (y : Nat → Arr (Fin D → ℝ)) : Except PyErr (PlateBand D) := do
  let pV ← broadcastedShape [pA, pB]
  let pX ← broadcastedShape [pV, pY]
  let x0 ← fillPlates pX (y 0)
  let v ← cholPlates (A 0)
  let v ← fillPlates pV v
  let s : PlateBand D := ⟨Function.update (fun _ => ⟨pV, fun _ => 0⟩) 0 v, fun _ => ⟨pV, fun _ => 0⟩,
    Function.update (fun _ => ⟨pX, fun _ => 0⟩) 0 x0, v.map cholLogdet⟩
  let s ← (List.range (N - 1)).foldlM (plateForward pV pX A B y) s
  let z ← cholSolveVec (s.V (N - 1)) (s.x (N - 1))
  let z ← fillPlates pX z
  let w ← fillPlates pV (cholInvPlates cholSolveM (s.V (N - 1)) 1)
  let s : PlateBand D := { s with
    x := Function.update s.x (N - 1) z
    V := Function.update s.V (N - 1) w }
  (List.range (N - 1)).reverse.foldlM (plateBackward pV pX B) s

/-- `block_banded_solve(A, B, y)`: the number of time instances and of dimensions come from `y`.  Without time instances
`y[..., 0, :]` raises `IndexError`; then `B` had to have `-1` blocks, so the check of `B` comes first. -/
noncomputable def blockBandedSolveArr (A B y : Arr ℝ) : Except PyErr (Σ D, PlateBand D) := do
  let D := axisLen y.shape 0
  let N := axisLen y.shape 1
  if y.shape.length < 2 then throw .indexError
  if A.shape.length < 3 then throw .indexError
  if axisLen A.shape 2 ≠ N then throw .valueError
  if axisLen A.shape 1 ≠ D ∨ axisLen A.shape 0 ≠ D then throw .valueError
  if B.shape.length < 3 then throw .indexError
  if axisLen B.shape 2 + 1 ≠ N then throw .valueError
  if axisLen B.shape 1 ≠ D ∨ axisLen B.shape 0 ≠ D then throw .valueError
  let s ← bandPlates N (A.shape.take (A.shape.length - 3)) (B.shape.take (B.shape.length - 3)) (y.shape.take (y.shape.length - 2))
    (timeBlock D A) (timeBlock D B) (timeVector D y)
  return ⟨D, s⟩

/-- The moments of the chain: `u0` and `u1` by time instance, `u2` by pair of neighbours -/
structure ChainMoments (D : Nat) where
  u0 : Nat → Arr (Fin D → ℝ)
  u1 : Nat → Arr (Matrix (Fin D) (Fin D) ℝ)
  u2 : Nat → Arr (Matrix (Fin D) (Fin D) ℝ)
  g : Arr ℝ

/-- `GaussianMarkovChainDistribution.compute_moments_and_cgf(phi)`, lines 86-123 -/
noncomputable def chainMomentsArr (phi0 phi1 phi2 : Arr ℝ) : Except PyErr (Σ D, ChainMoments D) := do
  let ⟨D, s⟩ ← blockBandedSolveArr (phi1.map fun a => -2 * a) (phi2.map fun a => -a) phi0
  let p1 ← broadcastedShape [(s.V 0).shape, (s.x 0).shape]
  let p2 ← broadcastedShape [(s.C 0).shape, (s.x 0).shape]
  let pg ← broadcastedShape [(s.x 0).shape, phi0.shape.take (phi0.shape.length - 2)]
  let xy : Arr ℝ := { shape := pg
                      get := fun c => ∑ n ∈ Finset.range (axisLen phi0.shape 1),
                        ∑ d, (s.x n).at c d * (timeVector D phi0 n).at c d }
  let g ← npMap2 (fun a b => a + b) (xy.map fun a => -0.5 * a) (s.ldet.map fun l => 0.5 * l)
  return ⟨D, { u0 := s.x
               u1 := fun n => { shape := p1, get := fun c => (s.V n).at c + vecMulVec ((s.x n).at c) ((s.x n).at c) }
               u2 := fun n => { shape := p2, get := fun c => (s.C n).at c + vecMulVec ((s.x n).at c) ((s.x (n + 1)).at c) }
               g := g }⟩

end Verif
