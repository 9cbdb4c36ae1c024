import Mathlib.LinearAlgebra.Matrix.NonsingularInverse
import Mathlib.Data.Real.Basic

/-!
# Symmetric block tridiagonal matrices
-/

namespace Verif.Spec
open Matrix

/-- The matrix with diagonal blocks `A 0, …, A (N-1)`, super-diagonal blocks `B 0, …, B (N-2)`, their
transposes below the diagonal and zeros elsewhere. -/
def blockTridiagonal {D : Nat} (N : Nat) (A B : Nat → Matrix (Fin D) (Fin D) ℝ) :
    Matrix (Fin N × Fin D) (Fin N × Fin D) ℝ := fun p q =>
  if p.1 = q.1 then A p.1 p.2 q.2
  else if p.1.val + 1 = q.1.val then B p.1 p.2 q.2
  else if q.1.val + 1 = p.1.val then B q.1 q.2 p.2
  else 0

/-- The blocks of a vector one after another. -/
def blockVector {D : Nat} (N : Nat) (x : Nat → Fin D → ℝ) : Fin N × Fin D → ℝ := fun p => x p.1 p.2

/-- Block `(m, n)` of a matrix. -/
def block {D N : Nat} (T : Matrix (Fin N × Fin D) (Fin N × Fin D) ℝ) (m n : Fin N) :
    Matrix (Fin D) (Fin D) ℝ := T.submatrix (fun i => (m, i)) fun j => (n, j)

end Verif.Spec
