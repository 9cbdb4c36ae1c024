import Verif.Model.Dist
import Mathlib.LinearAlgebra.Matrix.NonsingularInverse
import Mathlib.LinearAlgebra.Matrix.PosDef
import Mathlib.Analysis.SpecialFunctions.Trigonometric.Basic

/-!
# Model of the formulas of the distributions, part 2: Gaussian families and Wishart

Simplifications as in `Verif.Model.Dist`: one plate at a time, real numbers.  The variable axes are one finite index type
`ι` (a tuple of axes for `ndim > 1`), so arrays with the axes twice are matrices.  `linalg.chol_solve`,
`linalg.chol_inv` and `linalg.chol_logdet` of the Cholesky factor of a positive definite matrix are the exact
solution, inverse and logarithm of the determinant.  Truncation (`has_limits`) is not modelled.

Lists of moments are functions on sums of index types: `[vector, matrix]` on `ι ⊕ ι × ι`, `[vector, scalar, matrix,
scalar]` on `(ι ⊕ Unit) ⊕ (ι × ι ⊕ Unit)`, `[vector, matrix, scalar, scalar]` on `(ι ⊕ ι × ι) ⊕ (Unit ⊕ Unit)`.
-/

namespace Verif

section
variable {ι : Type*} [Fintype ι] [DecidableEq ι]

abbrev GIx (ι : Type*) := ι ⊕ ι × ι
abbrev GWIx (ι : Type*) := (ι ⊕ Unit) ⊕ (ι × ι ⊕ Unit)
abbrev GGIx (ι : Type*) := (ι ⊕ ι × ι) ⊕ (Unit ⊕ Unit)
abbrev WIx (ι : Type*) := ι × ι ⊕ Unit

def mkG (a : ι → ℝ) (A : Matrix ι ι ℝ) : GIx ι → ℝ := Sum.elim a fun p => A p.1 p.2

def mkGW (a : ι → ℝ) (b : ℝ) (C : Matrix ι ι ℝ) (d : ℝ) : GWIx ι → ℝ :=
  Sum.elim (Sum.elim a fun _ => b) (Sum.elim (fun p => C p.1 p.2) fun _ => d)

def mkGG (a : ι → ℝ) (B : Matrix ι ι ℝ) (c d : ℝ) : GGIx ι → ℝ :=
  Sum.elim (Sum.elim a fun p => B p.1 p.2) (Sum.elim (fun _ => c) fun _ => d)

def mkW (A : Matrix ι ι ℝ) (b : ℝ) : WIx ι → ℝ := Sum.elim (fun p => A p.1 p.2) fun _ => b

/-- the components of `[vector, matrix]` -/
def g0 (u : GIx ι → ℝ) : ι → ℝ := fun i => u (.inl i)
def g1 (u : GIx ι → ℝ) : Matrix ι ι ℝ := fun i j => u (.inr (i, j))

/-- the components of `[vector, scalar, matrix, scalar]` -/
def gw0 (u : GWIx ι → ℝ) : ι → ℝ := fun i => u (.inl (.inl i))
def gw1 (u : GWIx ι → ℝ) : ℝ := u (.inl (.inr ()))
def gw2 (u : GWIx ι → ℝ) : Matrix ι ι ℝ := fun i j => u (.inr (.inl (i, j)))
def gw3 (u : GWIx ι → ℝ) : ℝ := u (.inr (.inr ()))

/-- the components of `[vector, matrix, scalar, scalar]` -/
def gg0 (u : GGIx ι → ℝ) : ι → ℝ := fun i => u (.inl (.inl i))
def gg1 (u : GGIx ι → ℝ) : Matrix ι ι ℝ := fun i j => u (.inl (.inr (i, j)))
def gg2 (u : GGIx ι → ℝ) : ℝ := u (.inr (.inl ()))
def gg3 (u : GGIx ι → ℝ) : ℝ := u (.inr (.inr ()))

/-- the components of `[matrix, scalar]` -/
def w0 (u : WIx ι → ℝ) : Matrix ι ι ℝ := fun i j => u (.inl (i, j))
def w1 (u : WIx ι → ℝ) : ℝ := u (.inr ())

/-! ### Gaussian, `gaussian.py` lines 293-573 -/

/-- lines 366-373 -/
noncomputable def gaussianMsg (u : GIx ι → ℝ) : GWIx ι → ℝ :=
  mkGW (g0 u) (-0.5) ((-0.5 : ℝ) • g1 u) 0.5

/-- lines 377-394 -/
noncomputable def gaussianPhi (v : GWIx ι → ℝ) : GIx ι → ℝ := mkG (gw0 v) ((-0.5 : ℝ) • gw2 v)

/-- lines 420-444, without limits; also `GaussianARDDistribution.compute_moments_and_cgf`, lines 686-704, where the
axes are first merged into one -/
noncomputable def gaussianMoments (phi : GIx ι → ℝ) : GIx ι → ℝ :=
  let cov := ((-2 : ℝ) • g1 phi)⁻¹
  let mu := cov.mulVec (g0 phi)
  mkG mu (cov + Matrix.vecMulVec mu mu)

/-- lines 420-426 -/
noncomputable def gaussianCgf (phi : GIx ι → ℝ) : ℝ :=
  let mu := ((-2 : ℝ) • g1 phi)⁻¹.mulVec (g0 phi);
  -0.5 * (mu ⬝ᵥ g0 phi) + 0.5 * Real.log ((-2 : ℝ) • g1 phi).det

/-- lines 449-463 -/
noncomputable def gaussianCgfP (v : GWIx ι → ℝ) : ℝ := -0.5 * gw1 v + 0.5 * gw3 v

/-- line 484 -/
def gaussianFixed (x : ι → ℝ) : GIx ι → ℝ := mkG x (Matrix.vecMulVec x x)

/-- lines 483-486; `last` is the length of the last variable axis, `k = np.shape(x)[-1]` -/
noncomputable def gaussianF (last : ℕ) : ℝ := -(last : ℝ) / 2 * Real.log (2 * Real.pi)

/-- lines 534-554; the same in `GaussianARDDistribution`, lines 869-889 -/
noncomputable def gaussianGradient (g u : GIx ι → ℝ) : GIx ι → ℝ :=
  let x := g0 u
  let xx := g1 u
  let x_x := Matrix.vecMulVec x x
  let cov := xx - x_x
  let cov_g0 := cov.mulVec (g0 g)
  let cov_g0_x := Matrix.vecMulVec cov_g0 x
  let g1_x := (g1 g).mulVec x
  mkG (cov_g0 + (2 : ℝ) • cov.mulVec g1_x)
    (cov_g0_x + cov_g0_x.transpose + (2 : ℝ) • (xx * (g1 g * xx)) - (2 * (g1_x ⬝ᵥ x)) • x_x)

/-! ### GaussianARD, `gaussian.py` lines 576-889

The parent has the variable axes as plates, thus `[alpha*mu, alpha*mu^2, alpha, log(alpha)]` per element.  The message
and the parent's moments are functions on `ι × Fin 4`. -/

/-- lines 627-635 -/
noncomputable def ardMsg (u : GIx ι → ℝ) : ι × Fin 4 → ℝ :=
  fun p => (![g0 u p.1, -0.5, -0.5 * g1 u p.1 p.1, 0.5] : Fin 4 → ℝ) p.2

/-- lines 649-670 -/
noncomputable def ardPhi (v : ι × Fin 4 → ℝ) : GIx ι → ℝ :=
  mkG (fun i => v (i, 0)) (Matrix.diagonal fun i => -0.5 * v (i, 2))

/-- lines 709-732 -/
noncomputable def ardCgfP (v : ι × Fin 4 → ℝ) : ℝ := -0.5 * ∑ i, v (i, 1) + 0.5 * ∑ i, v (i, 3)

/-- lines 738-740; `k` is the number of elements -/
noncomputable def ardF (k : ℕ) : ℝ := -(k : ℝ) / 2 * Real.log (2 * Real.pi)

/-- the moments of a fixed mean and a fixed precision (`WrapToGaussianGamma`, lines 2339-2348, per element) -/
noncomputable def ardFixedParent (mu alpha : ι → ℝ) : ι × Fin 4 → ℝ :=
  fun p => (![mu p.1 * alpha p.1, mu p.1 * mu p.1 * alpha p.1, alpha p.1, Real.log (alpha p.1)] : Fin 4 → ℝ) p.2

/-- the scalar equations of `compute_moments_and_cgf` for `ndim = 0`, lines 673-678 -/
noncomputable def ardMoments0 (phi : Fin 2 → ℝ) : Fin 2 → ℝ :=
  let u0 := -phi 0 / (2 * phi 1)
  ![u0, u0 ^ 2 - 1 / (2 * phi 1)]

noncomputable def ardCgf0 (phi : Fin 2 → ℝ) : ℝ :=
  -0.5 * (-phi 0 / (2 * phi 1)) * phi 0 + 0.5 * Real.log (-2 * phi 1)

/-- the message, natural parameters and normalisation of `ndim = 0`, lines 627-635, 649-670 and 709-732 -/
noncomputable def ard0Msg (u : Fin 2 → ℝ) : Fin 4 → ℝ := ![u 0, -0.5, -0.5 * u 1, 0.5]
noncomputable def ard0Phi (v : Fin 4 → ℝ) : Fin 2 → ℝ := ![v 0, -0.5 * v 2]
noncomputable def ard0CgfP (v : Fin 4 → ℝ) : ℝ := -0.5 * v 1 + 0.5 * v 3

/-! ### Gaussian-gamma, `gaussian.py` lines 892-1136 -/

/-- lines 1022-1027 -/
noncomputable def ggMsg0 (u : GGIx ι → ℝ) : GWIx ι → ℝ := mkGW (gg0 u) (-0.5 * gg2 u) ((-0.5 : ℝ) • gg1 u) 0.5

/-- lines 1028-1032 -/
def ggMsg1 (u : GGIx ι → ℝ) (ub : Fin 2 → ℝ) : Fin 2 → ℝ := ![gg3 u + ub 1, -1]

/-- lines 1033-1037 -/
def ggMsg2 (u : GGIx ι → ℝ) (ua : Fin 2 → ℝ) : Fin 2 → ℝ := ![-gg2 u, ua 0]

/-- lines 1042-1055 -/
noncomputable def ggPhi (v : GWIx ι → ℝ) (ua ub : Fin 2 → ℝ) : GGIx ι → ℝ :=
  mkGG (gw0 v) ((-0.5 : ℝ) • gw2 v) (-0.5 * gw1 v - ub 0) (ua 0)

/-- lines 1062-1070 -/
noncomputable def ggMu (phi : GGIx ι → ℝ) : ι → ℝ := ((-2 : ℝ) • gg1 phi)⁻¹.mulVec (gg0 phi)
noncomputable def ggB (phi : GGIx ι → ℝ) : ℝ := -gg2 phi - 0.5 * (ggMu phi ⬝ᵥ gg0 phi)

/-- lines 1072-1080 -/
noncomputable def ggMoments (phi : GGIx ι → ℝ) : GGIx ι → ℝ :=
  let u2 := gg3 phi / ggB phi
  mkGG (u2 • ggMu phi) (((-2 : ℝ) • gg1 phi)⁻¹ + u2 • Matrix.vecMulVec (ggMu phi) (ggMu phi)) u2
    (-Real.log (ggB phi) + digamma (gg3 phi))

/-- line 1083 -/
noncomputable def ggCgf (phi : GGIx ι → ℝ) : ℝ :=
  0.5 * Real.log ((-2 : ℝ) • gg1 phi).det + gg3 phi * Real.log (ggB phi) - gammaln (gg3 phi)

/-- lines 1088-1097 -/
noncomputable def ggCgfP (v : GWIx ι → ℝ) (ua ub : Fin 2 → ℝ) : ℝ := 0.5 * gw3 v + ua 0 * ub 1 - ua 1

/-- lines 1100-1116 -/
noncomputable def ggFixed (x : ι → ℝ) (alpha : ℝ) : GGIx ι → ℝ :=
  mkGG (alpha • x) (alpha • Matrix.vecMulVec x x) alpha (Real.log alpha)

noncomputable def ggF (_x : ι → ℝ) (alpha : ℝ) : ℝ :=
  ((Fintype.card ι : ℝ) / 2 - 1) * Real.log alpha - (Fintype.card ι : ℝ) / 2 * Real.log (2 * Real.pi)

/-! ### Wishart, `wishart.py` -/

/-- `special.multigammaln(a, d)` -/
noncomputable def multigammaln (a : ℝ) (d : ℕ) : ℝ :=
  (d : ℝ) * (d - 1) / 4 * Real.log Real.pi + ∑ j ∈ Finset.range d, gammaln (a - 0.5 * j)

/-- `misc.multidigamma`, `misc.py` lines 1146-1151 -/
noncomputable def multidigamma (a : ℝ) (d : ℕ) : ℝ := ∑ j ∈ Finset.range d, digamma (a - 0.5 * j)

/-- `WishartPriorMoments.compute_fixed_moments`, lines 32-36 -/
noncomputable def wishartPriorFixed (k : ℕ) (n : ℝ) : Fin 2 → ℝ := ![n, multigammaln (0.5 * n) k]

/-- `WishartMoments.compute_fixed_moments`, lines 55-64 -/
noncomputable def wishartFixed (L : Matrix ι ι ℝ) : WIx ι → ℝ := mkW L (Real.log L.det)

/-- lines 136-147; the message to the degrees of freedom is not implemented -/
noncomputable def wishartMsgV (u : WIx ι → ℝ) (un : Fin 2 → ℝ) : WIx ι → ℝ := mkW ((-0.5 : ℝ) • w0 u) (0.5 * un 0)

/-- lines 149-163 -/
noncomputable def wishartPhi (un : Fin 2 → ℝ) (uV : WIx ι → ℝ) : WIx ι → ℝ := mkW ((-0.5 : ℝ) • w0 uV) (0.5 * un 0)

/-- lines 180-186 -/
noncomputable def wishartMoments (phi : WIx ι → ℝ) : WIx ι → ℝ :=
  mkW (w1 phi • (-w0 phi)⁻¹) (-Real.log (-w0 phi).det + multidigamma (w1 phi) (Fintype.card ι))

/-- line 187 -/
noncomputable def wishartCgf (phi : WIx ι → ℝ) : ℝ :=
  w1 phi * Real.log (-w0 phi).det - multigammaln (w1 phi) (Fintype.card ι)

/-- lines 190-205 -/
noncomputable def wishartCgfP (un : Fin 2 → ℝ) (uV : WIx ι → ℝ) : ℝ :=
  0.5 * un 0 * w1 uV - 0.5 * (Fintype.card ι : ℝ) * un 0 * Real.log 2 - un 1

/-- lines 207-225 -/
noncomputable def wishartF (L : Matrix ι ι ℝ) : ℝ := -((Fintype.card ι : ℝ) + 1) / 2 * Real.log L.det

/-! ### `WrapToGaussianWishart` and `WrapToGaussianGamma`, `gaussian.py` lines 2299-2527 -/

/-- `_compute_moments`, lines 2438-2459, of a Gaussian-gamma and a Wishart parent -/
noncomputable def wrapGW (uX : GGIx ι → ℝ) (uL : WIx ι → ℝ) : GWIx ι → ℝ :=
  mkGW ((w0 uL).mulVec (gg0 uX)) (∑ i, ∑ j, w0 uL i j * gg1 uX i j) (gg2 uX • w0 uL)
    (w1 uL + (Fintype.card ι : ℝ) * gg3 uX)

/-- `GaussianToGaussianGamma._compute_moments`, lines 2252-2258: the moments of a Gaussian with scale one -/
def toGaussianGamma (u : GIx ι → ℝ) : GGIx ι → ℝ := mkGG (g0 u) (g1 u) 1 0

end

end Verif
