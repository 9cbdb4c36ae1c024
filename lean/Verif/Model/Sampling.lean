import Verif.Model.BlockBandedSolve
import Verif.Model.CategoricalChain
import Verif.Model.GaussianDist
import Mathlib.Algebra.BigOperators.Group.List.Basic

/-!
# Drawing samples: `Node.random()`

`ExponentialFamily.random`, `expfamily.py` lines 538-542, calls `random(*phi, plates=...)` of the distribution with the
arrays `self.phi`.  One plate element is modelled.  The generators of NumPy are inputs: `np.random.rand` gives a number
in `[0, 1)` and `np.random.randn` a vector, whose distributions are stated with the properties; `np.random.gamma`,
`poisson`, `binomial` and `multinomial` are given by their documented probability functions (`Verif.Spec`).
-/

namespace Verif
open Matrix

/-- `np.cumsum`, with the sum `s` of what came before -/
def cumsumR (s : ℝ) : List ℝ → List ℝ
  | [] => []
  | p :: ps => (s + p) :: cumsumR (s + p) ps

open Classical in
/-- `np.searchsorted(P, x)` for an increasing `P`: the first position whose entry is at least `x` -/
noncomputable def searchsorted : List ℝ → ℝ → ℕ
  | [], _ => 0
  | p :: ps, x => if p < x then searchsorted ps x + 1 else 0

open Classical in
/-- `random.categorical(p)`, `utils/random.py` lines 247-287, for the draw `x` of `np.random.rand` -/
noncomputable def randomCategorical (p : List ℝ) (x : ℝ) : Except PyErr ℕ :=
  if ∃ a ∈ p, a < 0 then .error .valueError
  else
    let q := p.map fun a => a / p.sum
    .ok (searchsorted (cumsumR 0 q) x)

open Classical in
/-- `random.bernoulli(p)`, lines 235-244, and `random.mask`, line 57 -/
noncomputable def randomBernoulli (p x : ℝ) : Bool := decide (x < p)

section
variable {D : ℕ}

/-- `np.amax(logp, axis=-1)` -/
noncomputable def amaxFin (phi : Fin (D + 1) → ℝ) : ℝ := Finset.univ.sup' Finset.univ_nonempty phi

/-- `CategoricalDistribution.random`, `categorical.py` lines 117-124: the sample and what the array `phi[0]` holds
afterwards, since `logp -= ...` works in place -/
noncomputable def categoricalRandom (phi : Fin (D + 1) → ℝ) (x : ℝ) : Except PyErr ℕ × (Fin (D + 1) → ℝ) :=
  let logp := fun i => phi i - amaxFin phi
  (randomCategorical (List.ofFn fun i => Real.exp (logp i)) x, logp)

/-- `np.exp(phi - misc.logsumexp(phi, axis=-1, keepdims=True))` as a list -/
noncomputable def softmaxList (phi : Fin D → ℝ) : List ℝ :=
  List.ofFn fun i => Real.exp (phi i - Real.log (∑ j, Real.exp (phi j)))

/-- row `i` of `phi[1]` at transition `n` -/
def chainRow {N : ℕ} (phi : CatChainIx D N → ℝ) (n i : ℕ) : Fin D → ℝ := fun j =>
  if h : n < N ∧ i < D then phi (.inr (⟨n, h.1⟩, ⟨i, h.2⟩, j)) else 0

/-- `CategoricalMarkovChainDistribution.random`, `categorical_markov_chain.py` lines 178-214, for the draws `x`: the
state at time `n` -/
noncomputable def chainRandom {N : ℕ} (phi : CatChainIx D N → ℝ) (x : ℕ → ℝ) : ℕ → Except PyErr ℕ
  | 0 => randomCategorical (softmaxList fun i => phi (.inl i)) (x 0)
  | n + 1 => do
    let z ← chainRandom phi x n
    randomCategorical (softmaxList (chainRow phi n z)) (x (n + 1))

/-- `GaussianDistribution.random`, `gaussian.py` lines 557-575, and the second branch of
`GaussianARDDistribution.random`, lines 799-821, where the axes are merged first; `z` is the draw of `np.random.randn`;
`linalg.solve_triangular(U, z, trans='N', lower=False)` is modelled by its contract -/
noncomputable def gaussianRandom (phi : GIx (Fin D) → ℝ) (z : Fin D → ℝ) : Except PyErr (Fin D → ℝ) := do
  let U ← chol ((-2 : ℝ) • g1 phi)
  let mu := cholSolve U (g0 phi)
  return mu + U⁻¹ *ᵥ z

/-- `GaussianARDDistribution.random`, lines 783-798: one element -/
noncomputable def gaussianScalarRandom (phi : Fin 2 → ℝ) (z : ℝ) : ℝ :=
  let var := -0.5 / phi 1
  let std := Real.sqrt var
  let mu := var * phi 0
  mu + std * z

/-- the arguments of `np.random.gamma` in `GammaDistribution.random`, `gamma.py` line 180: shape and scale -/
noncomputable def gammaRandomArgs (phi : Fin 2 → ℝ) : ℝ × ℝ := (phi 1, -1 / phi 0)

/-- the argument of `np.random.poisson`, `poisson.py` line 128 -/
noncomputable def poissonRandomArg (phi : Fin 1 → ℝ) : ℝ := Real.exp (phi 0)

/-- `random.logodds_to_probability`, `utils/random.py` lines 350-354; the argument of `np.random.binomial`,
`binomial.py` lines 141-142 -/
noncomputable def binomialRandomArg (phi : Fin 1 → ℝ) : ℝ := 1 / (1 + Real.exp (-phi 0))

/-- the argument of `np.random.multinomial`, `multinomial.py` lines 157-158 -/
noncomputable def multinomialRandomArg {ι : Type*} [Fintype ι] (phi : ι → ℝ) : ι → ℝ := expNormalized phi

/-- `random.dirichlet`, `utils/random.py` lines 327-347: `g` is the draw of `np.random.gamma(alpha)` -/
noncomputable def randomDirichlet {ι : Type*} [Fintype ι] (g : ι → ℝ) : Except PyErr (ι → ℝ) :=
  open Classical in
  if ∑ i, g i = 0 then .error .runtimeError else .ok fun i => g i / ∑ j, g j

/-- the arguments of the two draws in `GaussianGammaDistribution.random`, `gaussian.py` lines 1119-1139: the natural
parameters of the gamma variable, and those of the Gaussian given the value `alpha` of the first -/
def gaussianGammaRandomGamma {ι : Type*} (phi : GGIx ι → ℝ) : Fin 2 → ℝ := ![gg2 phi, gg3 phi]

def gaussianGammaRandomGaussian {ι : Type*} (phi : GGIx ι → ℝ) (alpha : ℝ) : GIx ι → ℝ :=
  mkG (alpha • gg0 phi) (alpha • gg1 phi)

/-- `random.wishart(nu, V)`, `utils/random.py` lines 59-72, for the draws `X` of `np.random.multivariate_normal`: the
shape of the result and the result -/
noncomputable def randomWishart {nu : ℕ} (X : Matrix (Fin nu) (Fin D) ℝ) :
    Except PyErr ((ℕ × ℕ) × Matrix (Fin nu) (Fin nu) ℝ) :=
  if nu < D then .error .valueError else .ok ((nu, nu), X * Xᵀ)

end

end Verif
