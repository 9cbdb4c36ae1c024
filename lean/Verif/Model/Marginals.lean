import Verif.Model.GaussianDist
import Verif.Model.BlockBandedSolve

/-!
# Model of the marginal distributions of a Gaussian-gamma node

`bayespy/inference/vmp/nodes/gaussian.py` lines 1946-2143, class `GaussianGamma`, and `bayespy/utils/random.py`.  One plate.
-/

namespace Verif
open Matrix

/-- `random.gaussian_logpdf`, `random.py` lines 126-145 -/
noncomputable def randGaussianLogpdf (yVy yVmu muVmu logdetV : ℝ) (D : ℕ) : ℝ :=
  -0.5 * yVy + yVmu - 0.5 * muVmu + 0.5 * logdetV - 0.5 * D * Real.log (2 * Real.pi)

/-- `random.gamma_logpdf`, lines 163-183 -/
def randGammaLogpdf (bx logx alogx alogb gammalna : ℝ) : ℝ := alogb - gammalna + alogx - logx - bx

/-- `random.gaussian_gamma_to_t`, lines 425-432 -/
noncomputable def gaussianGammaToT {κ : Type*} (mu : κ → ℝ) (Cov : Matrix κ κ ℝ) (a b : ℝ) :
    (κ → ℝ) × Matrix κ κ ℝ × ℝ :=
  let alpha := a / b
  (mu, (1 / alpha) • Cov, 2 * a)

/-- `random.t_logpdf`, lines 435-442 -/
noncomputable def randTLogpdf (z2 logdetCov nu : ℝ) (D : ℕ) : ℝ :=
  gammaln ((nu + D) / 2) - gammaln (nu / 2) - 0.5 * D * Real.log (nu * Real.pi) - 0.5 * logdetCov
    - 0.5 * (nu + D) * Real.log (1 + z2 / nu)

section
variable {D n : ℕ}

/-- The parameters computed in lines 2072-2080: `mu`, `Cov`, `a` and `b` -/
structure GGParams (D : ℕ) where
  mu : Fin D → ℝ
  Cov : Matrix (Fin D) (Fin D) ℝ
  a : ℝ
  b : ℝ

/-- `np.allclose(A, B)` -/
def AllClose (A B : Matrix (Fin D) (Fin D) ℝ) : Prop := ∀ i j, |A i j - B i j| ≤ 1 / 10 ^ 8 + 1 / 10 ^ 5 * |B i j|

open Classical in
/-- `get_marginal_logpdf`, lines 2064-2080: `self.ndim` is an attribute that the nodes do not have (`None` here); the moments
`u` are those of the node. -/
noncomputable def ggParams (ndim : Option ℕ) (phi u : GGIx (Fin D) → ℝ) (inds : Option (Fin n → Fin D)) (gamma : Bool) :
    Except PyErr (GGParams D) :=
  match ndim with
  | none => .error .attributeError
  | some d =>
    if d ≠ 1 then .error .notImplemented
    else if inds.isNone ∧ gamma = false then .error .valueError
    else
      let mu := fun i => gg0 u i / gg2 u
      let Cov := ((-2 : ℝ) • gg1 phi)⁻¹
      if ¬ AllClose Cov (gg1 u - vecMulVec (gg0 u) mu) then .error .exception
      else .ok ⟨mu, Cov, gg3 phi, -gg2 phi - 0.5 * (gg0 phi ⬝ᵥ mu)⟩

/-- The function returned for Gaussian variables only, lines 2082-2100 -/
noncomputable def ggMarginalT (p : GGParams D) (inds : Fin n → Fin D) (x : Fin n → ℝ) : Except PyErr ℝ := do
  let (mu, S, nu) := gaussianGammaToT (p.mu ∘ inds) (p.Cov.submatrix inds inds) p.a p.b
  let L ← chol S
  let y := x - mu
  let v := cholSolve L y
  return randTLogpdf (y ⬝ᵥ v) (cholLogdet L) nu n

/-- The function returned for the gamma variable only, lines 2102-2111 -/
noncomputable def ggMarginalGamma (p : GGParams D) (x : ℝ) : ℝ :=
  randGammaLogpdf (p.b * x) (Real.log x) (p.a * Real.log x) (p.a * Real.log p.b) (gammaln p.a)

/-- The function returned for both, lines 2112-2143 -/
noncomputable def ggMarginalJoint (p : GGParams D) (inds : Fin n → Fin D) (x : Fin n → ℝ) (tau : ℝ) : Except PyErr ℝ := do
  let L ← chol (p.Cov.submatrix inds inds)
  let logtau := Real.log tau
  let y := x - p.mu ∘ inds
  let v := fun i => cholSolve L y i * tau
  return randGaussianLogpdf (y ⬝ᵥ v) 0 0 (cholLogdet L + n * logtau) n
    + randGammaLogpdf (p.b * tau) logtau (p.a * logtau) (p.a * Real.log p.b) (gammaln p.a)

/-- The parameters that `plotmatrix` gives to `gaussian_gamma_to_t` for one variable, lines 1967-1989: location, squared scale
and degrees of freedom of the density drawn in the panel of variable `i` -/
noncomputable def ggPlotT (phi u : GGIx (Fin D) → ℝ) (i : Fin D) : ℝ × ℝ × ℝ :=
  let tau := gg2 u
  let mu := fun i => gg0 u i / tau
  let Cov := (1 / tau) • (gg1 u - vecMulVec (gg0 u) mu)
  let a := gg3 phi
  let b := -gg2 phi - 0.5 * (gg0 phi ⬝ᵥ mu)
  let (m, S, nu) := gaussianGammaToT (fun _ : Unit => mu i) (fun _ _ => Cov i i) a b
  (m (), S () (), nu)

/-- `get_gaussian_mean_and_variance`, lines 2023-2045 -/
noncomputable def ggMeanAndVariance (ndim : Option ℕ) (phi u : GGIx (Fin D) → ℝ) :
    Except PyErr ((Fin D → ℝ) × (Fin D → ℝ)) :=
  match ndim with
  | none => .error .attributeError
  | some d =>
    if d ≠ 1 then .error .notImplemented
    else
      let nu := 2 * gg3 phi
      if nu ≤ 1 then .error .valueError
      else if nu ≤ 2 then .error .valueError
      else
        let mu := fun i => gg0 u i / gg2 u
        let var := fun i => (gg1 u i i - gg0 u i * mu i) / gg2 u
        .ok (mu, fun i => nu / (nu - 2) * var i)

/-- `get_gaussian_location`, lines 2010-2019 -/
noncomputable def ggLocation (u : GGIx (Fin D) → ℝ) : Fin D → ℝ := fun i => gg0 u i / gg2 u

end

end Verif
