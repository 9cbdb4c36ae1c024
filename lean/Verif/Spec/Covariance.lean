import Mathlib.Analysis.SpecialFunctions.Exp
import Mathlib.Data.Matrix.Mul
import Verif.Spec.Arr
import Verif.Model.Arr

/-!
# Covariance functions
-/

namespace Verif.Spec

/-- The array `x` holds `N` points with `D` coordinates each: a matrix has one point on each row, a vector is a list of numbers
and a number is a single point. -/
inductive IsInput (x : Arr ℝ) : (N D : ℕ) → (Fin N → Fin D → ℝ) → Prop
  | matrix {N D : ℕ} (P : Fin N → Fin D → ℝ) (hs : x.shape = [N, D]) (hD : N = 0 ∨ D ≠ 0)
      (h : ∀ (i : Fin N) (k : Fin D), x.get (coord [i, k]) = P i k) : IsInput x N D P
  | vector {N : ℕ} (P : Fin N → Fin 1 → ℝ) (hs : x.shape = [N]) (h : ∀ (i : Fin N) (k : Fin 1), x.get (coord [i]) = P i k) : IsInput x N 1 P
  | scalar (P : Fin 1 → Fin 1 → ℝ) (hs : x.shape = []) (h : ∀ i k, x.get (coord []) = P i k) : IsInput x 1 1 P

/-- The array holds one number. -/
def HoldsNumber (X : Arr ℝ) (a : ℝ) : Prop := X.shape.prod = 1 ∧ X.get (fun _ => 0) = a

/-- The squared exponential covariance function. -/
noncomputable def squaredExponential {D : ℕ} (a l : ℝ) (x y : Fin D → ℝ) : ℝ :=
  a ^ 2 * Real.exp (-(∑ k, (x k - y k) ^ 2) / (2 * l ^ 2))

/-- The piecewise polynomial covariance function with `q = 2` in `d` dimensions, on `0 ≤ r ≤ 1` (Rasmussen & Williams 2006,
Equation 4.21). -/
noncomputable def piecewisePolynomial (d : ℕ) (r : ℝ) : ℝ :=
  let j := d / 2 + 3
  (1 - r) ^ (j + 2) * (((j : ℝ) ^ 2 + 4 * j + 3) * r ^ 2 + (3 * j + 6) * r + 3) / 3

/-- The elements of a two dimensional array as a matrix. -/
def toMatrix {α : Type} (X : Arr α) (m n : ℕ) : Matrix (Fin m) (Fin n) α := Matrix.of fun i j => X.get (coord [i, j])

end Verif.Spec
