import Mathlib.LinearAlgebra.Matrix.NonsingularInverse
import Mathlib.Analysis.SpecialFunctions.Log.Basic
import Verif.Model.Py

/-!
# Model of `block_banded_solve`, `bayespy/utils/linalg.py` lines 468-575

One plate; `D × D` blocks over the reals.  Arrays over blocks are functions of `Nat` that are used below
the number of blocks only.  LAPACK's Cholesky routines, called through `scipy.linalg.cho_factor` and
`cho_solve`, are modelled by their contract.
-/

namespace Verif
open Matrix

variable {D : Nat}

/-- `U` is the upper Cholesky factor of `A`. -/
structure IsChol (A U : Matrix (Fin D) (Fin D) ℝ) : Prop where
  upper : ∀ i j, j < i → U i j = 0
  pos : ∀ i, 0 < U i i
  eq : Uᵀ * U = A

/-- `scipy.linalg.cho_factor` reads the upper triangle only. -/
def fromUpper (A : Matrix (Fin D) (Fin D) ℝ) : Matrix (Fin D) (Fin D) ℝ :=
  fun i j => if i ≤ j then A i j else A j i

open Classical in
/-- `linalg.chol(C)`, lines 32-63. -/
noncomputable def chol (C : Matrix (Fin D) (Fin D) ℝ) : Except PyErr (Matrix (Fin D) (Fin D) ℝ) :=
  if h : ∃ U, IsChol (fromUpper C) U then .ok h.choose else .error .exception

/-- `linalg.chol_solve(U, b)`, lines 66-160. -/
noncomputable def cholSolve (U : Matrix (Fin D) (Fin D) ℝ) (b : Fin D → ℝ) : Fin D → ℝ :=
  (Uᵀ * U)⁻¹ *ᵥ b

/-- `linalg.chol_solve(U, B, matrix=True)`: the columns of `B` are solved one by one. -/
noncomputable def cholSolveM (U B : Matrix (Fin D) (Fin D) ℝ) : Matrix (Fin D) (Fin D) ℝ :=
  of fun i j => cholSolve U (fun k => B k j) i

/-- `linalg.chol_inv(U)`, lines 174-203. -/
noncomputable def cholInv (U : Matrix (Fin D) (Fin D) ℝ) : Matrix (Fin D) (Fin D) ℝ :=
  cholSolveM U 1

/-- `linalg.chol_logdet(U)`, lines 205-219. -/
noncomputable def cholLogdet (U : Matrix (Fin D) (Fin D) ℝ) : ℝ := 2 * ∑ i, Real.log (U i i)

/-- The arrays `V`, `C`, `x` and the number `ldet`. -/
structure BandState (D : Nat) where
  V : Nat → Matrix (Fin D) (Fin D) ℝ
  C : Nat → Matrix (Fin D) (Fin D) ℝ
  x : Nat → Fin D → ℝ
  ldet : ℝ

/-- Lines 536-553. -/
noncomputable def bandForward (A B : Nat → Matrix (Fin D) (Fin D) ℝ) (y : Nat → Fin D → ℝ)
    (s : BandState D) (n : Nat) : Except PyErr (BandState D) := do
  let x := Function.update s.x (n + 1) (y (n + 1) - (B n)ᵀ *ᵥ cholSolve (s.V n) (s.x n))
  let C := Function.update s.C n (cholSolveM (s.V n) (B n))
  let V := Function.update s.V (n + 1) (A (n + 1) - (B n)ᵀ * C n)
  let V := Function.update V (n + 1) ((0.5 : ℝ) • (V (n + 1) + (V (n + 1))ᵀ))
  let U ← chol (V (n + 1))
  let V := Function.update V (n + 1) U
  return ⟨V, C, x, s.ldet + cholLogdet (V (n + 1))⟩

/-- Lines 560-573. -/
noncomputable def bandBackward (B : Nat → Matrix (Fin D) (Fin D) ℝ) (s : BandState D) (n : Nat) :
    BandState D :=
  let x := Function.update s.x n (cholSolve (s.V n) (s.x n - B n *ᵥ s.x (n + 1)))
  let V := Function.update s.V n (cholInv (s.V n) + s.C n * (s.V (n + 1) * (s.C n)ᵀ))
  let C := Function.update s.C n (-(s.C n * V (n + 1)))
  let V := Function.update V n ((0.5 : ℝ) • (V n + (V n)ᵀ))
  ⟨V, C, x, s.ldet⟩

/-- `block_banded_solve(A, B, y)`, lines 468-575, for `nA` diagonal and `nB` super-diagonal blocks and a
right-hand side of `N` blocks.  The blocks have the right size (lines 503-510 check that). -/
noncomputable def blockBandedSolve (nA nB N : Nat) (A B : Nat → Matrix (Fin D) (Fin D) ℝ)
    (y : Nat → Fin D → ℝ) : Except PyErr (BandState D) := do
  if nA ≠ N then throw .valueError
  if nB + 1 ≠ N then throw .valueError
  let U ← chol (A 0)
  let s : BandState D := ⟨Function.update (fun _ => 0) 0 U, fun _ => 0,
    Function.update (fun _ => 0) 0 (y 0), cholLogdet U⟩
  let s ← (List.range (N - 1)).foldlM (bandForward A B y) s
  let s : BandState D := { s with
    x := Function.update s.x (N - 1) (cholSolve (s.V (N - 1)) (s.x (N - 1)))
    V := Function.update s.V (N - 1) (cholInv (s.V (N - 1))) }
  return (List.range (N - 1)).reverse.foldl (bandBackward B) s

end Verif
