import Verif.Spec.GammaArrays
import Verif.Spec.NodeBound

/-!
# What the arrays of gamma, Poisson, binomial, Dirichlet and multinomial nodes hold on one plate
-/

namespace Verif.Spec

/-- The part of `⟨log p(x | a, b)⟩` of a gamma variable that depends on the parents, on plate `p`: `u` holds `x`, `log x`; `a` holds
`a`, `log Γ(a)`; `b` holds `b`, `log b`. -/
noncomputable def gammaLog (p : List Nat) (u a b : Arr2) : ℝ :=
  a.1.at (coord p) * b.2.at (coord p) - a.2.at (coord p) + a.1.at (coord p) * u.2.at (coord p) - b.1.at (coord p) * u.1.at (coord p)

/-- The same for a Poisson variable `x` with the rate `l`, `log l`. -/
noncomputable def poissonLog (p : List Nat) (x : Arr ℝ) (l : Arr2) : ℝ := x.at (coord p) * l.2.at (coord p) - l.1.at (coord p)

/-- The same for a binomial variable: `x` of `N` trials with log probability `q[..., 0]`, the others with `q[..., 1]`. -/
noncomputable def binomialLog (p : List Nat) (N x q : Arr ℝ) : ℝ :=
  x.at (coord p) * q.at (coord (p ++ [0])) + (N.at (coord p) - x.at (coord p)) * q.at (coord (p ++ [1]))

/-- the sum of products over the last axis, of length `k`, on plate `p` -/
noncomputable def pairL (k : Nat) (p : List Nat) (m u : Arr ℝ) : ℝ :=
  ∑ t ∈ Finset.range k, m.at (coord (p ++ [t])) * u.at (coord (p ++ [t]))

/-- The same for a Dirichlet variable with `k` categories: `u` holds the log probabilities; `a` holds the concentrations and the
expected log normaliser.  -/
noncomputable def dirichletLog (k : Nat) (p : List Nat) (u : Arr ℝ) (a : Arr2) : ℝ := pairL k p a.1 u + a.2.at (coord p)

/-- `log Γ` and its derivative -/
noncomputable def logGamma (x : ℝ) : ℝ := Real.log (Real.Gamma x)

noncomputable def psi : ℝ → ℝ := deriv logGamma

/-- the gamma distribution with natural parameters `φ` on plate `p`: shape `φ₁`, rate `-φ₀` -/
structure GammaOn (p : List Nat) (phi u : Arr2) (g : Arr ℝ) : Prop where
  mean : u.1.at (coord p) * -phi.1.at (coord p) = phi.2.at (coord p)
  log : u.2.at (coord p) = psi (phi.2.at (coord p)) - Real.log (-phi.1.at (coord p))
  cgf : g.at (coord p) = phi.2.at (coord p) * Real.log (-phi.1.at (coord p)) - logGamma (phi.2.at (coord p))

/-- the Dirichlet distribution with concentrations `φ` over `k` categories on plate `p` -/
structure DirichletOn (k : Nat) (p : List Nat) (phi u : Arr ℝ) (g : Arr ℝ) : Prop where
  log : ∀ t < k, u.at (coord (p ++ [t])) = psi (phi.at (coord (p ++ [t]))) - psi (∑ j ∈ Finset.range k, phi.at (coord (p ++ [j])))
  cgf : g.at (coord p) = logGamma (∑ j ∈ Finset.range k, phi.at (coord (p ++ [j])))
    - ∑ j ∈ Finset.range k, logGamma (phi.at (coord (p ++ [j])))

/-- the weight `exp φ` of a category, none if `φ` is `-∞` -/
noncomputable def weight : Flt → ℝ
  | .fin a => Real.exp a
  | _ => 0

/-- the sum of the weights of the `k` categories on plate `p` -/
noncomputable def totalWeight (k : Nat) (p : List Nat) (phi : Arr Flt) : ℝ := ∑ j ∈ Finset.range k, weight (phi.at (coord (p ++ [j])))

/-- a real number or `-∞` -/
def IsLog (x : Flt) : Prop := x = .negInf ∨ ∃ a, x = .fin a

end Verif.Spec
