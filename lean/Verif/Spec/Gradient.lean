import Mathlib.Analysis.Calculus.FDeriv.Basic
import Mathlib.Analysis.Normed.Group.Constructions
import Mathlib.Data.Matrix.Mul

/-!
# Gradients of functions of several vectors
-/

namespace Verif.Spec
open Matrix

variable {ι : Type} [Fintype ι]

/-- `g k m x` is, for every `k`, the gradient with respect to the `k`-th vector of the scalar product of `m` and `f` at `x`. -/
def IsGradients {n : ℕ} (f : (Fin n → ι → ℝ) → ι → ℝ) (g : Fin n → (ι → ℝ) → (Fin n → ι → ℝ) → ι → ℝ)
    (x : Fin n → ι → ℝ) : Prop :=
  ∃ f' : (Fin n → ι → ℝ) →L[ℝ] (ι → ℝ), HasFDerivAt f f' x ∧ ∀ m w, m ⬝ᵥ f' w = ∑ k, g k m x ⬝ᵥ w k

/-- `g k` is, for every `k`, the gradient of `L` with respect to the `k`-th vector at `x`. -/
def IsGradientOf {n : ℕ} (L : (Fin n → ι → ℝ) → ℝ) (g x : Fin n → ι → ℝ) : Prop :=
  ∃ L' : (Fin n → ι → ℝ) →L[ℝ] ℝ, HasFDerivAt L L' x ∧ ∀ w, L' w = ∑ k, g k ⬝ᵥ w k

end Verif.Spec
