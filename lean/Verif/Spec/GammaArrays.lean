import Verif.Spec.GaussianArrays
import Verif.Spec.Linalg
import Mathlib.Analysis.SpecialFunctions.Gamma.Basic
import Mathlib.Analysis.Calculus.Deriv.Basic

/-!
# What the arrays of Gaussian-gamma, Gaussian-Wishart and Wishart moments hold on one plate
-/

namespace Verif.Spec
open Matrix

/-- `[vector, matrix, scalar, scalar]`, `[vector, scalar, matrix, scalar]` -/
abbrev Arr4 := Arr ℝ × Arr ℝ × Arr ℝ × Arr ℝ

/-- `[matrix, scalar]`, `[vector, matrix]` or `[scalar, scalar]` -/
abbrev Arr2 := Arr ℝ × Arr ℝ

/-- the shapes of Gaussian-gamma moments of a variable over the axes `s`, whose plates broadcast to `P` -/
def ShapedGG (P s : List Nat) (u : Arr4) : Prop :=
  PlatesDims u.1.shape P s ∧ PlatesDims u.2.1.shape P (s ++ s) ∧ BroadcastsTo u.2.2.1.shape P ∧ BroadcastsTo u.2.2.2.shape P

/-- the shapes of Gaussian-Wishart moments -/
def ShapedGW (P s : List Nat) (u : Arr4) : Prop :=
  PlatesDims u.1.shape P s ∧ BroadcastsTo u.2.1.shape P ∧ PlatesDims u.2.2.1.shape P (s ++ s) ∧ BroadcastsTo u.2.2.2.shape P

/-- the shapes of Gaussian moments -/
def ShapedG (P s : List Nat) (u : Arr2) : Prop := PlatesDims u.1.shape P s ∧ PlatesDims u.2.shape P (s ++ s)

/-- the shapes of Wishart moments -/
def ShapedW (P s : List Nat) (u : Arr2) : Prop := PlatesDims u.1.shape P (s ++ s) ∧ BroadcastsTo u.2.shape P

/-- the shapes of gamma moments and of their prior -/
def ShapedS (P : List Nat) (u : Arr2) : Prop := BroadcastsTo u.1.shape P ∧ BroadcastsTo u.2.shape P

/-- the sum of the products of the elements of two matrices -/
def entries {m n : Type*} [Fintype m] [Fintype n] (A B : Matrix m n ℝ) : ℝ := ∑ i, ∑ j, A i j * B i j

/-- `⟨m, u⟩` on plate `p` -/
noncomputable def pairGG (s p : List Nat) (m u : Arr4) : ℝ :=
  vectorOf m.1 p s ⬝ᵥ vectorOf u.1 p s + entries (matrixOf m.2.1 p s s) (matrixOf u.2.1 p s s)
    + m.2.2.1.at (coord p) * u.2.2.1.at (coord p) + m.2.2.2.at (coord p) * u.2.2.2.at (coord p)

noncomputable def pairGW (s p : List Nat) (m u : Arr4) : ℝ :=
  vectorOf m.1 p s ⬝ᵥ vectorOf u.1 p s + m.2.1.at (coord p) * u.2.1.at (coord p)
    + entries (matrixOf m.2.2.1 p s s) (matrixOf u.2.2.1 p s s) + m.2.2.2.at (coord p) * u.2.2.2.at (coord p)

noncomputable def pairG (s p : List Nat) (m u : Arr2) : ℝ :=
  vectorOf m.1 p s ⬝ᵥ vectorOf u.1 p s + entries (matrixOf m.2 p s s) (matrixOf u.2 p s s)

noncomputable def pairW (s p : List Nat) (m u : Arr2) : ℝ :=
  entries (matrixOf m.1 p s s) (matrixOf u.1 p s s) + m.2.at (coord p) * u.2.at (coord p)

noncomputable def pairS (p : List Nat) (m u : Arr2) : ℝ :=
  m.1.at (coord p) * u.1.at (coord p) + m.2.at (coord p) * u.2.at (coord p)

/-- The part of `⟨log p(x, τ | μ, Λ, a, b)⟩` that depends on the parents, on plate `p`: `u` holds `τx`, `τxxᵀ`, `τ`, `log τ`; `v`
holds `Λμ`, `μᵀΛμ`, `Λ`, `log |Λ|`; `a` holds `a`, `log Γ(a)`; `b` holds `b`, `log b`. -/
noncomputable def gaussianGammaLog (s p : List Nat) (u v : Arr4) (a b : Arr2) : ℝ :=
  vectorOf u.1 p s ⬝ᵥ vectorOf v.1 p s - 1 / 2 * entries (matrixOf u.2.1 p s s) (matrixOf v.2.2.1 p s s)
    - 1 / 2 * (u.2.2.1.at (coord p) * v.2.1.at (coord p)) + 1 / 2 * v.2.2.2.at (coord p)
    - b.1.at (coord p) * u.2.2.1.at (coord p) + a.1.at (coord p) * u.2.2.2.at (coord p)
    + a.1.at (coord p) * b.2.at (coord p) - a.2.at (coord p)

/-- the same for `⟨log p(x | μ, Λ)⟩`, with `x`, `xxᵀ` in `u` -/
noncomputable def gaussianLog (s p : List Nat) (u : Arr2) (v : Arr4) : ℝ :=
  vectorOf u.1 p s ⬝ᵥ vectorOf v.1 p s - 1 / 2 * entries (matrixOf u.2 p s s) (matrixOf v.2.2.1 p s s)
    - 1 / 2 * v.2.1.at (coord p) + 1 / 2 * v.2.2.2.at (coord p)

/-- the same for `⟨log p(Λ | n, V)⟩` with `k × k` matrices: `u` holds `Λ`, `log |Λ|`; `n` holds `n`, `log Γ_k(n/2)`; `V` holds `V`,
`log |V|` -/
noncomputable def wishartLog (k : Nat) (p : List Nat) (u n V : Arr2) : ℝ :=
  -(1 / 2) * entries (matrixOf V.1 p [k] [k]) (matrixOf u.1 p [k] [k]) + n.1.at (coord p) / 2 * u.2.at (coord p)
    + n.1.at (coord p) / 2 * V.2.at (coord p) - n.1.at (coord p) * k / 2 * Real.log 2 - n.2.at (coord p)

/-- The Gaussian-gamma distribution with natural parameters `φ` on plate `p`: with the precision `Λ = -2 φ₁`, the mean `m` that
solves `Λ m = φ₀` and `b = -φ₂ - ½ mᵀ φ₀`, the moments are `⟨τ⟩ = φ₃ / b`, `⟨log τ⟩ = ψ(φ₃) - log b`, `⟨τx⟩ = ⟨τ⟩ m` and
`⟨τxxᵀ⟩ = Λ⁻¹ + ⟨τ⟩ m mᵀ`. -/
structure GaussianGammaOn (s p : List Nat) (phi u : Arr4) (g : Arr ℝ) (m : MultiIndex s → ℝ) (b : ℝ) : Prop where
  mean : ((-2 : ℝ) • matrixOf phi.2.1 p s s) *ᵥ m = vectorOf phi.1 p s
  rate : b = -phi.2.2.1.at (coord p) - 1 / 2 * (m ⬝ᵥ vectorOf phi.1 p s)
  u2 : u.2.2.1.at (coord p) = phi.2.2.2.at (coord p) / b
  u3 : u.2.2.2.at (coord p) = deriv (fun x => Real.log (Real.Gamma x)) (phi.2.2.2.at (coord p)) - Real.log b
  u0 : vectorOf u.1 p s = (phi.2.2.2.at (coord p) / b) • m
  u1 : ((-2 : ℝ) • matrixOf phi.2.1 p s s) * (matrixOf u.2.1 p s s - (phi.2.2.2.at (coord p) / b) • vecMulVec m m) = 1
  cgf : g.at (coord p) = 1 / 2 * Real.log ((-2 : ℝ) • matrixOf phi.2.1 p s s).det + phi.2.2.2.at (coord p) * Real.log b
    - Real.log (Real.Gamma (phi.2.2.2.at (coord p)))

/-- The Wishart distribution of `k × k` matrices with natural parameters `φ` on plate `p`: `⟨Λ⟩ = φ₁ (-φ₀)⁻¹`,
`⟨log |Λ|⟩ = ψ_k(φ₁) - log |-φ₀|`. -/
structure WishartOn (k : Nat) (p : List Nat) (phi u : Arr2) (g : Arr ℝ) : Prop where
  mean : (-matrixOf phi.1 p [k] [k]) * matrixOf u.1 p [k] [k] = phi.2.at (coord p) • (1 : Matrix (MultiIndex [k]) (MultiIndex [k]) ℝ)
  logdet : u.2.at (coord p) = ∑ j ∈ Finset.range k, deriv (fun x => Real.log (Real.Gamma x)) (phi.2.at (coord p) - j / 2)
    - Real.log (-matrixOf phi.1 p [k] [k]).det
  cgf : g.at (coord p) = phi.2.at (coord p) * Real.log (-matrixOf phi.1 p [k] [k]).det
    - ((k : ℝ) * (k - 1) / 4 * Real.log Real.pi + ∑ j ∈ Finset.range k, Real.log (Real.Gamma (phi.2.at (coord p) - j / 2)))

end Verif.Spec
