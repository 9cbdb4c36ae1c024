import Mathlib.Analysis.SpecialFunctions.Gamma.Deriv
import Mathlib.Analysis.SpecialFunctions.Log.Basic
import Mathlib.Data.Matrix.Mul
import Mathlib.Data.Fin.VecNotation

/-!
# Model of the formulas of the distributions, part 1

One plate at a time: all formulas act elementwise on the plates, or over the variable axes, which are an index type
here.  Real numbers instead of floats; arguments where the code divides by zero or takes a logarithm of zero are
excluded in the theorems.  `special.gammaln` is `log Γ`, `special.digamma` its derivative.  A list of moments or
parameters of shape `()` is a vector `![u0, u1]`; a list of a vector and a scalar is a function on `Option ι`, where
`none` is the scalar.  Functions named `…Msg` are `compute_message_to_parent`, `…Phi` are `compute_phi_from_parents`,
`…CgfP` are `compute_cgf_from_parents`, `…Moments` and `…Cgf` are the two results of `compute_moments_and_cgf`,
`…Fixed` and `…F` those of `compute_fixed_moments_and_f`.
-/

namespace Verif

/-- `special.gammaln` -/
noncomputable def gammaln (x : ℝ) : ℝ := Real.log (Real.Gamma x)

/-- `special.digamma` (`special.psi`) -/
noncomputable def digamma (x : ℝ) : ℝ := deriv gammaln x

/-- `ExponentialFamilyDistribution.compute_logpdf`, `expfamily.py` lines 45-62 (`0` is used for the parameter where
the moment is zero, which only matters for infinite parameters); the terms of `ExponentialFamily.logpdf`, lines 483-497,
are the same. -/
noncomputable def logpdf {ι : Type*} [Fintype ι] (u phi : ι → ℝ) (g f : ℝ) : ℝ :=
  g + f + ∑ i, (if u i ≠ 0 then phi i else 0) * u i

/-! ### Gamma, `gamma.py` -/

/-- `GammaPriorMoments.compute_fixed_moments`, lines 42-51 -/
noncomputable def gammaPriorFixed (a : ℝ) : Fin 2 → ℝ := ![a, gammaln a]

/-- `GammaMoments.compute_fixed_moments`, lines 70-79; and `compute_fixed_moments_and_f`, lines 163-173 -/
noncomputable def gammaFixed (x : ℝ) : Fin 2 → ℝ := ![x, Real.log x]

noncomputable def gammaF (x : ℝ) : ℝ := -Real.log x

/-- lines 96-107 -/
def gammaMsgA (u ub : Fin 2 → ℝ) : Fin 2 → ℝ := ![u 1 + ub 1, -1]

/-- lines 108-111 -/
def gammaMsgB (u ua : Fin 2 → ℝ) : Fin 2 → ℝ := ![-u 0, ua 0]

/-- lines 116-121 -/
def gammaPhi (ua ub : Fin 2 → ℝ) : Fin 2 → ℝ := ![-ub 0, 1 * ua 0]

/-- lines 151-160 -/
def gammaCgfP (ua ub : Fin 2 → ℝ) : ℝ := ua 0 * ub 1 - ua 1

/-- lines 142-146 -/
noncomputable def gammaMoments (phi : Fin 2 → ℝ) : Fin 2 → ℝ :=
  ![phi 1 / (-phi 0), digamma (phi 1) - Real.log (-phi 0)]

/-- line 147 -/
noncomputable def gammaCgf (phi : Fin 2 → ℝ) : ℝ := phi 1 * Real.log (-phi 0) - gammaln (phi 1)

/-- `compute_gradient`, lines 209-211; `tri` is `special.polygamma(1, ·)` -/
noncomputable def gammaGradient (tri : ℝ → ℝ) (g phi : Fin 2 → ℝ) : Fin 2 → ℝ :=
  ![g 0 * phi 1 / phi 0 ^ 2 - g 1 / phi 0, g 1 * tri (phi 1) - g 0 / phi 0]

/-! ### Poisson, `poisson.py` -/

/-- lines 61-70 -/
def poissonMsg (u : Fin 1 → ℝ) : Fin 2 → ℝ := ![-1, u 0]

/-- lines 73-80 -/
def poissonPhi (ul : Fin 2 → ℝ) : Fin 1 → ℝ := ![ul 1]

/-- lines 83-90 -/
noncomputable def poissonMoments (phi : Fin 1 → ℝ) : Fin 1 → ℝ := ![Real.exp (phi 0)]

noncomputable def poissonCgf (phi : Fin 1 → ℝ) : ℝ := -Real.exp (phi 0)

/-- lines 93-99 -/
def poissonCgfP (ul : Fin 2 → ℝ) : ℝ := -ul 0

/-- lines 102-121 for a non-negative integer -/
def poissonFixed (x : ℕ) : Fin 1 → ℝ := ![(x : ℝ)]

noncomputable def poissonF (x : ℕ) : ℝ := -gammaln (x + 1)

/-! ### Binomial, `binomial.py`; Bernoulli is `N = 1` -/

/-- lines 77-88: `x*[1, -1] + n*[0, 1]` -/
def binomialMsg (N : ℕ) (u : Fin 1 → ℝ) : Fin 2 → ℝ := ![u 0 * 1 + N * 0, u 0 * -1 + N * 1]

/-- lines 91-98 -/
def binomialPhi (up : Fin 2 → ℝ) : Fin 1 → ℝ := ![up 0 - up 1]

/-- lines 101-107; `log1p(x) = log(1 + x)` -/
noncomputable def binomialMoments (N : ℕ) (phi : Fin 1 → ℝ) : Fin 1 → ℝ := ![N / (1 + Real.exp (-phi 0))]

noncomputable def binomialCgf (N : ℕ) (phi : Fin 1 → ℝ) : ℝ := -N * Real.log (1 + Real.exp (phi 0))

/-- lines 110-116 -/
def binomialCgfP (N : ℕ) (up : Fin 2 → ℝ) : ℝ := N * up 1

/-- lines 119-134 for `x ≤ N` -/
def binomialFixed (x : ℕ) : Fin 1 → ℝ := ![(x : ℝ)]

noncomputable def binomialF (N x : ℕ) : ℝ := gammaln (N + 1) - gammaln (x + 1) - gammaln (N - x + 1)

/-! ### Dirichlet, `dirichlet.py`; Beta is the case of two categories -/

section
variable {ι : Type*} [Fintype ι]

/-- `ConcentrationMoments.compute_fixed_moments`, lines 37-51 -/
noncomputable def concentrationFixed (α : ι → ℝ) : Option ι → ℝ
  | none => gammaln (∑ i, α i) - ∑ i, gammaln (α i)
  | some i => α i

/-- `DirichletMoments.compute_fixed_moments`, lines 76-93, and lines 170-203: the vector is normalised first -/
noncomputable def dirichletFixed (p : ι → ℝ) : ι → ℝ := fun i => Real.log (p i / ∑ j, p j)

noncomputable def dirichletF (p : ι → ℝ) : ℝ := -∑ i, dirichletFixed p i

/-- lines 113-120 -/
def dirichletMsg (u : ι → ℝ) : Option ι → ℝ
  | none => 1
  | some i => u i

/-- lines 123-127 -/
def dirichletPhi (uα : Option ι → ℝ) : ι → ℝ := fun i => uα (some i)

/-- lines 147-155 -/
noncomputable def dirichletMoments (phi : ι → ℝ) : ι → ℝ := fun i => digamma (phi i) - digamma (∑ j, phi j)

/-- lines 147-158 -/
noncomputable def dirichletCgf (phi : ι → ℝ) : ℝ := gammaln (∑ i, phi i) - ∑ i, gammaln (phi i)

/-- lines 163-167 -/
def dirichletCgfP (uα : Option ι → ℝ) : ℝ := uα none

/-- `compute_gradient`, lines 229-231 -/
noncomputable def dirichletGradient (tri : ℝ → ℝ) (g phi : ι → ℝ) : ι → ℝ :=
  fun i => g i * (tri (phi i) - tri (∑ j, phi j))

/-- `BetaMoments.compute_fixed_moments`, `beta.py` lines 33-39, and `compute_fixed_moments_and_f`, lines 87-92: `[p, 1-p]` -/
def betaVector (p : ℝ) : Fin 2 → ℝ := ![p * 1 + 0, p * -1 + 1]

/-! ### Multinomial, `multinomial.py`; Categorical is `N = 1` -/

/-- lines 83-90 -/
def multinomialMsg (u : ι → ℝ) : ι → ℝ := u

/-- lines 93-98 -/
def multinomialPhi (up : ι → ℝ) : ι → ℝ := up

/-- `misc.normalized_exp`, `misc.py` (see `C43_normalized_exp` for its numerically stable evaluation) -/
noncomputable def expNormalized (phi : ι → ℝ) : ι → ℝ :=
  let logsum := Real.log (∑ j, Real.exp (phi j))
  let p := fun i => Real.exp (phi i - logsum)
  fun i => p i / ∑ j, p j

/-- lines 114-120 -/
noncomputable def multinomialMoments (N : ℕ) (phi : ι → ℝ) : ι → ℝ := fun i => N * expNormalized phi i

/-- line 119 -/
noncomputable def multinomialCgf (N : ℕ) (phi : ι → ℝ) : ℝ := -(N * Real.log (∑ j, Real.exp (phi j)))

/-- lines 123-127 -/
def multinomialCgfP (_up : ι → ℝ) : ℝ := 0

/-- lines 130-152 for counts that sum to `N` -/
def multinomialFixed (x : ι → ℕ) : ι → ℝ := fun i => x i

noncomputable def multinomialF (N : ℕ) (x : ι → ℕ) : ℝ := gammaln (N + 1) - ∑ i, gammaln (x i + 1)

/-- `compute_gradient`, line 213, for `N` without plates -/
noncomputable def multinomialGradient (N : ℕ) (g u : ι → ℝ) : ι → ℝ := fun i => u i * (g i - (∑ j, g j * u j) / N)

end

end Verif
