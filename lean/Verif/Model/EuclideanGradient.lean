import Verif.Model.Network
import Verif.Model.GaussianDist
import Verif.Model.Linalg
import Verif.Model.ExpFamily

/-!
# Model of the gradient with respect to the natural parameters

`compute_gradient` of the distributions is in `Model/Dist.lean` and `Model/GaussianDist.lean` (`gammaGradient`,
`dirichletGradient`, `multinomialGradient`, `gaussianGradient`).  Here: `GaussianARD` without variable axes,
`ExponentialFamily.get_gradient` in a network, and `Multinomial` with an array of numbers of trials.
-/

namespace Verif

/-- `GaussianARDDistribution.compute_gradient`, `gaussian.py` lines 869-889, for `ndim = 0`: `outer`, `mvdot`, `mmdot` and
`inner` are products and `transpose` does nothing (`linalg.py` lines 334, 306, 436-437 and 448-450). -/
def ard0Gradient (g u : Fin 2 → ℝ) : Fin 2 → ℝ :=
  let x := u 0
  let xx := u 1
  let x_x := x * x
  let cov := xx - x_x
  let cov_g0 := cov * g 0
  let cov_g0_x := cov_g0 * x
  let g1_x := g 1 * x
  ![cov_g0 + 2 * (cov * g1_x), cov_g0_x + cov_g0_x + 2 * (xx * (g 1 * xx)) - 2 * x_x * (g1_x * x)]

namespace Net
variable (G : Net)

/-- `get_riemannian_gradient`, `expfamily.py` lines 260-280 -/
def riemannianGradient (n : G.N) (s : G.State) : G.plate n → (G.fam n).I → ℝ :=
  fun q j => G.ann n * (((G.fam n).phiP (G.parents n s.u q) j + G.bias n q j) + G.fromChildren n s.u q j) - s.phi n q j

/-- `get_gradient(rg)`, lines 283-296; `grad g u phi` is `compute_gradient` of the distribution of the node -/
noncomputable def euclideanGradient (n : G.N)
    (grad : ((G.fam n).I → ℝ) → ((G.fam n).I → ℝ) → ((G.fam n).I → ℝ) → (G.fam n).I → ℝ)
    (rg : G.plate n → (G.fam n).I → ℝ) (s : G.State) : G.plate n → (G.fam n).I → ℝ :=
  fun q i => grad (rg q) (s.u n q) (s.phi n q) i / G.ann n

end Net

/-- `X / Y` for arrays. -/
def npDiv {α : Type _} [Div α] (X Y : Arr α) : Except PyErr (Arr α) := do
  let s ← broadcastedShape [X.shape, Y.shape]
  return { shape := s, get := fun c => X.at c / Y.at c }

/-- `MultinomialDistribution.compute_gradient`, `multinomial.py` line 213, with its arrays:
`u[0] * (g - linalg.inner(g, u[0])[...,None] / self.N)`.  `g` is the list `[g0]`, which NumPy converts to an array with
one more leading axis of length one, and so is the result, whose element `[0]` is used (`expfamily.py` lines 294-295). -/
def multinomialGradientArr {α : Type _} [Field α] (N g0 u0 : Arr α) : Except PyErr (Arr α) := do
  let g : Arr α := { shape := 1 :: g0.shape, get := fun c => g0.get c }
  let gu ← linInner [g, u0] 1
  let q ← npDiv (addTrailingAxes gu 1) N
  let r ← npSub g q
  npMul u0 r

end Verif
