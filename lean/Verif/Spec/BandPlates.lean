import Mathlib.Analysis.SpecialFunctions.Log.Basic
import Verif.Spec.BlockBandedSolve
import Verif.Model.Arr
import Verif.Spec.Arr

/-!
# The blocks of one plate
-/

namespace Verif.Spec
open Matrix

/-- The `n`-th matrix on plate `p` of an array of shape `plates ++ [N, D, D]`; plates are read with NumPy's broadcasting. -/
def plateBlock (D : Nat) (X : Arr ℝ) (p : List Nat) (n : Nat) : Matrix (Fin D) (Fin D) ℝ :=
  Matrix.of fun i j => X.at (coord (p ++ [n, (i : Nat), (j : Nat)]))

/-- The `n`-th vector on plate `p` of an array of shape `plates ++ [N, D]` -/
def plateVector (D : Nat) (X : Arr ℝ) (p : List Nat) (n : Nat) : Fin D → ℝ := fun d => X.at (coord (p ++ [n, (d : Nat)]))

variable {D : Nat}

/-- What is asked of the results on one plate: `T` is the symmetric block tridiagonal matrix with the blocks `A` and `B`.  The
vectors `x` solve `T x = y`, `V` and `C` are the diagonal and super-diagonal blocks of the inverse of `T`, and `l` is the logarithm
of its determinant. -/
structure BandSolution (M : Nat) (A B : Nat → Matrix (Fin D) (Fin D) ℝ) (y : Nat → Fin D → ℝ)
    (V C : Nat → Matrix (Fin D) (Fin D) ℝ) (x : Nat → Fin D → ℝ) (l : ℝ) : Prop where
  x : blockTridiagonal (M + 1) A B *ᵥ blockVector (M + 1) x = blockVector (M + 1) y
  V : ∀ n : Fin (M + 1), V n = block (blockTridiagonal (M + 1) A B)⁻¹ n n
  C : ∀ n : Fin M, C n = block (blockTridiagonal (M + 1) A B)⁻¹ n.castSucc n.succ
  ldet : l = Real.log (blockTridiagonal (M + 1) A B).det

/-- What is asked of the moments of a chain on one plate, given the natural parameters of the plate.  `T` is the precision matrix of
all states; the mean is `T⁻¹ φ₀`; the second moments are those of the Gaussian with this mean and covariance `T⁻¹`; and `g` is the
logarithm of its normalising factor, less the constant. -/
structure ChainMean (M : Nat) (T : Matrix (Fin (M + 1) × Fin D) (Fin (M + 1) × Fin D) ℝ) (b : Fin (M + 1) × Fin D → ℝ)
    (u0 : Nat → Fin D → ℝ) (u1 u2 : Nat → Matrix (Fin D) (Fin D) ℝ) (g : ℝ) : Prop where
  u0 : ∀ (n : Fin (M + 1)) d, u0 n d = (T⁻¹ *ᵥ b) (n, d)
  u1 : ∀ (n : Fin (M + 1)) d e, u1 n d e = T⁻¹ (n, d) (n, e) + (T⁻¹ *ᵥ b) (n, d) * (T⁻¹ *ᵥ b) (n, e)
  u2 : ∀ (n : Fin M) d e, u2 n d e = T⁻¹ (n.castSucc, d) (n.succ, e) + (T⁻¹ *ᵥ b) (n.castSucc, d) * (T⁻¹ *ᵥ b) (n.succ, e)
  g : g = -(1 / 2) * (b ⬝ᵥ (T⁻¹ *ᵥ b)) + 1 / 2 * Real.log T.det

end Verif.Spec
