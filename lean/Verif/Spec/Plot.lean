import Mathlib.Analysis.SpecialFunctions.Trigonometric.Basic
import Mathlib.LinearAlgebra.Matrix.PosDef
import Mathlib.LinearAlgebra.Matrix.Notation

/-!
# Specification of what the figures show
-/

namespace Verif.Spec
open Matrix

/-- The curve that `matplotlib.patches.Ellipse(xy, width, height, angle)` draws: `width` and `height` are the lengths of the whole axes, and
the ellipse is rotated anti-clockwise by `angle` degrees. -/
def ellipseCurve (xy : Fin 2 → ℝ) (width height angle : ℝ) : Set (Fin 2 → ℝ) :=
  {p | ∃ t : ℝ,
    p 0 = xy 0 + (Real.cos (angle * Real.pi / 180) * (width / 2 * Real.cos t) - Real.sin (angle * Real.pi / 180) * (height / 2 * Real.sin t)) ∧
    p 1 = xy 1 + (Real.sin (angle * Real.pi / 180) * (width / 2 * Real.cos t) + Real.cos (angle * Real.pi / 180) * (height / 2 * Real.sin t))}

/-- The points at a distance of `s` standard deviations from the mean of the Gaussian with mean `mu` and precision `L` -/
def deviationCurve (mu : Fin 2 → ℝ) (L : Matrix (Fin 2) (Fin 2) ℝ) (s : ℝ) : Set (Fin 2 → ℝ) := {p | (p - mu) ⬝ᵥ (L *ᵥ (p - mu)) = s ^ 2}

/-- What `eigh` promises: the columns of `W` are orthonormal eigenvectors and the eigenvalues `e` are in ascending order.  The sign of each
column is left open. -/
structure Eigh (A : Matrix (Fin 2) (Fin 2) ℝ) (e : Fin 2 → ℝ) (W : Matrix (Fin 2) (Fin 2) ℝ) : Prop where
  orthonormal : Wᵀ * W = 1
  eigen : ∀ i, A *ᵥ (fun r => W r i) = e i • fun r => W r i
  sorted : e 0 ≤ e 1

/-- The density of the Gaussian with precision `L` at its mean, in two dimensions -/
noncomputable def peakDensity (L : Matrix (Fin 2) (Fin 2) ℝ) : ℝ := Real.sqrt L.det / (2 * Real.pi)

/-- Three tables of `m` rows and `n` columns are what a contour plot needs to show `f`: every column has its own `x`, every row has its own
`y`, and the height is `f` of both. -/
def ShowsFunction (m n : Nat) (x y : Nat → ℝ) (f : ℝ → ℝ → ℝ) (X Y P : Nat → Nat → Option ℝ) : Prop :=
  ∀ i < m, ∀ j < n, X i j = some (x j) ∧ Y i j = some (y i) ∧ P i j = some (f (x j) (y i))

end Verif.Spec
