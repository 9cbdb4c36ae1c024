import Mathlib.Analysis.SpecialFunctions.Gamma.Basic
import Mathlib.Analysis.SpecialFunctions.Pow.Real
import Mathlib.Data.Matrix.Mul
import Mathlib.LinearAlgebra.Matrix.Determinant.Basic
import Mathlib.LinearAlgebra.Matrix.Trace
import Mathlib.Analysis.SpecialFunctions.Trigonometric.Basic

/-!
# Textbook densities, and what a message must be
-/

namespace Verif.Spec
open scoped BigOperators

/-- `E`, a function of the moments of one parent, is linear in them with coefficients `m`, up to a constant. -/
def IsCoefficient {ι : Type*} [Fintype ι] (E : (ι → ℝ) → ℝ) (m : ι → ℝ) : Prop :=
  ∃ r, ∀ v, E v = m ⬝ᵥ v + r

/-- Poisson probability of `x` with rate `l` -/
noncomputable def poissonPmf (l : ℝ) (x : ℕ) : ℝ := l ^ x * Real.exp (-l) / x.factorial

/-- Binomial probability of `x` successes out of `n` -/
noncomputable def binomialPmf (n : ℕ) (p : ℝ) (x : ℕ) : ℝ := n.choose x * p ^ x * (1 - p) ^ (n - x)

/-- Multinomial probability of the counts `x` -/
noncomputable def multinomialPmf {ι : Type*} [Fintype ι] (n : ℕ) (p : ι → ℝ) (x : ι → ℕ) : ℝ :=
  n.factorial / (∏ i, ((x i).factorial : ℝ)) * ∏ i, p i ^ x i

/-- Gamma density with shape `a` and rate `b` -/
noncomputable def gammaPdf (a b x : ℝ) : ℝ := b ^ a / Real.Gamma a * x ^ (a - 1) * Real.exp (-(b * x))

/-- Dirichlet density -/
noncomputable def dirichletPdf {ι : Type*} [Fintype ι] (α p : ι → ℝ) : ℝ :=
  Real.Gamma (∑ i, α i) / (∏ i, Real.Gamma (α i)) * ∏ i, p i ^ (α i - 1)

/-- Beta density -/
noncomputable def betaPdf (a b p : ℝ) : ℝ :=
  Real.Gamma (a + b) / (Real.Gamma a * Real.Gamma b) * p ^ (a - 1) * (1 - p) ^ (b - 1)

/-- Density of the normal distribution with mean `mu` and precision matrix `L` -/
noncomputable def gaussianPdf {ι : Type*} [Fintype ι] [DecidableEq ι] (mu : ι → ℝ) (L : Matrix ι ι ℝ) (x : ι → ℝ) : ℝ :=
  (2 * Real.pi) ^ (-(Fintype.card ι : ℝ) / 2) * L.det ^ (1 / 2 : ℝ) * Real.exp (-1 / 2 * ((x - mu) ⬝ᵥ L.mulVec (x - mu)))

/-- Density of independent normal variables with means `mu` and precisions `alpha` -/
noncomputable def gaussianARDPdf {ι : Type*} [Fintype ι] (mu alpha x : ι → ℝ) : ℝ :=
  ∏ i, (Real.sqrt (alpha i / (2 * Real.pi)) * Real.exp (-alpha i / 2 * (x i - mu i) ^ 2))

/-- Density of a Gaussian-gamma pair: `tau` is gamma, and `x` given `tau` normal with precision `tau L` -/
noncomputable def gaussianGammaPdf {ι : Type*} [Fintype ι] [DecidableEq ι] (mu : ι → ℝ) (L : Matrix ι ι ℝ) (a b : ℝ)
    (x : ι → ℝ) (tau : ℝ) : ℝ := gaussianPdf mu (tau • L) x * gammaPdf a b tau

/-- The multivariate gamma function -/
noncomputable def multigamma (a : ℝ) (k : ℕ) : ℝ :=
  Real.pi ^ ((k : ℝ) * (k - 1) / 4) * ∏ j ∈ Finset.range k, Real.Gamma (a - j / 2)

/-- Wishart density with `n` degrees of freedom and inverse scale matrix `V` -/
noncomputable def wishartPdf {ι : Type*} [Fintype ι] [DecidableEq ι] (n : ℝ) (V L : Matrix ι ι ℝ) : ℝ :=
  let k := Fintype.card ι
  L.det ^ ((n - k - 1) / 2) * Real.exp (-1 / 2 * (V * L).trace) * V.det ^ (n / 2) / (2 ^ (n * k / 2) * multigamma (n / 2) k)

end Verif.Spec
