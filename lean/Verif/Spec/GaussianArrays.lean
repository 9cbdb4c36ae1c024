import Verif.Spec.RowMajor
import Mathlib.LinearAlgebra.Matrix.PosDef
import Mathlib.Analysis.SpecialFunctions.Log.Basic
import Mathlib.LinearAlgebra.Matrix.NonsingularInverse

/-!
# What the arrays of a Gaussian node hold on one plate
-/

namespace Verif.Spec
open Matrix

/-- The arrays `m`, `M2` and `g` hold on plate `p` the moments and the cumulant function of the Gaussian distribution of a
variable over the axes `s` that has natural parameters `φ₀`, `φ₁`: with the precision `Λ = -2 φ₁` the mean solves `Λ m = φ₀`,
the second moment is the inverse of `Λ` plus `m mᵀ`, and `g = -½ mᵀ φ₀ + ½ log det Λ`. -/
structure GaussianMomentsOn (s p : List Nat) (phi0 phi1 m M2 g : Arr ℝ) : Prop where
  mean : ((-2 : ℝ) • matrixOf phi1 p s s) *ᵥ vectorOf m p s = vectorOf phi0 p s
  second : ((-2 : ℝ) • matrixOf phi1 p s s) * (matrixOf M2 p s s - vecMulVec (vectorOf m p s) (vectorOf m p s)) = 1
  cgf : g.at (coord p) = -(1 / 2) * (vectorOf m p s ⬝ᵥ vectorOf phi0 p s)
    + 1 / 2 * Real.log ((-2 : ℝ) • matrixOf phi1 p s s).det

section
variable {ι : Type*} [Fintype ι] [DecidableEq ι]

/-- the mean of the Gaussian distribution with natural parameters `φ₀`, `φ₁` -/
noncomputable def gaussMean (φ₀ : ι → ℝ) (φ₁ : Matrix ι ι ℝ) : ι → ℝ := ((-2 : ℝ) • φ₁)⁻¹ *ᵥ φ₀

/-- its second moment -/
noncomputable def gaussSecond (φ₀ : ι → ℝ) (φ₁ : Matrix ι ι ℝ) : Matrix ι ι ℝ :=
  ((-2 : ℝ) • φ₁)⁻¹ + vecMulVec (gaussMean φ₀ φ₁) (gaussMean φ₀ φ₁)

end

end Verif.Spec
