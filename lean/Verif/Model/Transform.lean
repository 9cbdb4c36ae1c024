import Verif.Model.Rotate
import Verif.Model.FactorModel

/-!
# Model of the rotation parameter expansion, `transformations.py`

`RotationOptimizer` lines 24-216, `RotateGaussian` 219-330, `RotateGaussianARD` 376-1108 (without plate rotation `Q`, and
without `subset`), and the densities it uses from `random.py`.

The arrays are functions on finite types: `P` is the set of plate elements of `X` (its other variable axes included), `ι`
the rotated axis, `A` the plates of `alpha` without the axis which belongs to `ι`, and `K` that axis, so that the element
`(p, i)` of `X` has the precision `alpha (π p) (κ i)`.  As NumPy's broadcasting makes it, every element of `A` belongs to
`r` elements of `P`, and every element of `K` to `rK` elements of `ι` (`K` has the length of `ι` or length one).
-/

namespace Verif
open Matrix

/-- `random.gaussian_logpdf`, `random.py` line 145 -/
noncomputable def gaussianLogpdf (yVy yVmu muVmu logdetV D : ℝ) : ℝ :=
  -0.5 * yVy + yVmu - 0.5 * muVmu + 0.5 * logdetV - 0.5 * D * Real.log (2 * Real.pi)

/-- `random.gaussian_entropy`, line 161 -/
noncomputable def gaussianEntropy (logdetV D : ℝ) : ℝ := -0.5 * logdetV + 0.5 * D + 0.5 * D * Real.log (2 * Real.pi)

/-- `random.gamma_logpdf`, line 183 -/
def gammaLogpdf (bx logx aLogx aLogb gammalnA : ℝ) : ℝ := aLogb - gammalnA + aLogx - logx - bx

section
variable {P A ι K : Type*} [Fintype P] [Fintype A] [Fintype ι] [Fintype K] [DecidableEq A] [DecidableEq K] [DecidableEq ι]

/-- what `setup` stores, without the parameters of `alpha` -/
structure ArdSums (A ι : Type*) where
  XX : A → Matrix ι ι ℝ
  mu2 : A → ι → ℝ
  Xmu : A → Matrix ι ι ℝ

/-- `setup`, lines 483-650: `u` are the moments of `X` and `v` those of its parent, `[alpha*mu, alpha*mu2, alpha,
log(alpha)]`; the sums over the elements which share an element of `alpha` (`sum_to_alpha`, lines 547-555). -/
noncomputable def ardSetup (π : P → A) (u : P → GIx ι → ℝ) (v : P → ι × Fin 4 → ℝ) : ArdSums A ι :=
  let mu := fun p i => v p (i, 0) / v p (i, 2)
  let mu2 := fun p i => v p (i, 1) / v p (i, 2)
  { XX := fun a => ∑ p with π p = a, g1 (u p)
    mu2 := fun a => ∑ p with π p = a, mu2 p
    Xmu := fun a => ∑ p with π p = a, vecMulVec (g0 (u p)) (mu p) }

/-- lines 760-767: the expected squares of `R x - mu` -/
def ardSquares (S : ArdSums A ι) (R : Matrix ι ι ℝ) : A → ι → ℝ :=
  fun a =>
    let RXmu := fun i => ∑ k, R i k * S.Xmu a k i
    let RXX := R * S.XX a
    let RXXR := fun i => ∑ k, RXX i k * R i k
    fun i => RXXR i - 2 * RXmu i + S.mu2 a i

/-- line 777: `b0 + 0.5 * sum_to_plates(XmuXmu, plates_alpha)` -/
noncomputable def ardRate (κ : ι → K) (b0 : A → K → ℝ) (S : ArdSums A ι) (R : Matrix ι ι ℝ) : A → K → ℝ :=
  fun a k => b0 a k + 0.5 * ∑ i with κ i = k, ardSquares S R a i

/-- `_compute_bound` with `alpha`, lines 713-851.  `nP` is the number of plate elements of `X`. -/
noncomputable def ardBoundUpdate (nP r rK : ℕ) (κ : ι → K) (a a0 b0 : A → K → ℝ) (S : ArdSums A ι) (R : Matrix ι ι ℝ)
    (logdet : ℝ) : ℝ :=
  let sq := ardSquares S R
  let b := ardRate κ b0 S R
  let alpha := fun q k => a q k / b q k
  let logalpha := fun q k => -Real.log (b q k)
  let logH_X := gaussianEntropy (-2 * (nP * logdet)) 0
  let logp_X := gaussianLogpdf (∑ q, ∑ i, sq q i * alpha q (κ i)) 0 0 ((r * rK : ℕ) * ∑ q, ∑ k, logalpha q k) 0
  let logp_alpha := gammaLogpdf (∑ q, ∑ k, b0 q k * alpha q k) 0 (∑ q, ∑ k, a0 q k * logalpha q k) 0 0
  0 + logp_X + logp_alpha + logH_X + 0

/-- `_compute_bound` without `alpha`; here `alpha` is fixed -/
noncomputable def ardBoundFixed (nP : ℕ) (κ : ι → K) (alpha : A → K → ℝ) (S : ArdSums A ι) (R : Matrix ι ι ℝ)
    (logdet : ℝ) : ℝ :=
  let sq := ardSquares S R
  let logH_X := gaussianEntropy (-2 * (nP * logdet)) 0
  let logp_X := gaussianLogpdf (∑ q, ∑ i, sq q i * alpha q (κ i)) 0 0 0 0
  0 + logp_X + 0 + logH_X + 0

/-- line 872: the derivative of the squares of row `i` by `R i j` -/
def ardDSquares (S : ArdSums A ι) (R : Matrix ι ι ℝ) : A → Matrix ι ι ℝ :=
  fun a => (2 : ℝ) • (R * S.XX a) - (2 : ℝ) • (S.Xmu a)ᵀ

/-- the gradient by `R` with `alpha`, lines 857-953.  `a0` has no plates but the one of the rotated axis; as line 901
multiplies it with an array of shape `(..., D, D)`, it is broadcast along the columns. -/
noncomputable def ardGradUpdate (nP r rK : ℕ) (κ : ι → K) (a : A → K → ℝ) (a0 : K → ℝ) (b0 : A → K → ℝ) (S : ArdSums A ι)
    (R : Matrix ι ι ℝ) (inv : Matrix ι ι ℝ) : Matrix ι ι ℝ :=
  let sq := ardSquares S R
  let b := ardRate κ b0 S R
  let alpha := fun q k => a q k / b q k
  let D := ardDSquares S R
  let DXmuXmu_alpha := fun q i j => alpha q (κ i) * D q i j
  let D_b := fun q i j => 0.5 * D q i j
  let XmuXmu_Dalpha := fun q i j => (∑ i' with κ i' = κ i, sq q i') * alpha q (κ i) * (-1 / b q (κ i)) * D_b q i j
  let D_b0_alpha := fun q i j => b0 q (κ i) * alpha q (κ i) * (-1 / b q (κ i)) * D_b q i j
  let D_logb := fun q i j => 1 / b q (κ i) * D_b q i j
  let D_logalpha := fun q i j => -D_logb q i j
  let D_a0_logalpha := fun q i j => a0 (κ j) * D_logalpha q i j
  let D_XmuXmu_alpha := fun q i j => DXmuXmu_alpha q i j + XmuXmu_Dalpha q i j
  fun i j =>
    let dlogH_X := gaussianEntropy (-2 * (nP * invᵀ i j)) 0
    let dlogp_X := gaussianLogpdf (∑ q, D_XmuXmu_alpha q i j) 0 0 (r * (∑ q, D_logalpha q i j) * rK) 0
    let dlogp_alpha := gammaLogpdf (∑ q, D_b0_alpha q i j) 0 (∑ q, D_a0_logalpha q i j) 0 0
    0 * dlogp_X + dlogp_X + dlogp_alpha + dlogH_X + 0

/-- the gradient by `R` with fixed `alpha` -/
noncomputable def ardGradFixed (nP : ℕ) (κ : ι → K) (alpha : A → K → ℝ) (S : ArdSums A ι) (R : Matrix ι ι ℝ)
    (inv : Matrix ι ι ℝ) : Matrix ι ι ℝ :=
  let D := ardDSquares S R
  fun i j =>
    let dlogH_X := gaussianEntropy (-2 * (nP * invᵀ i j)) 0
    let dlogp_X := gaussianLogpdf (∑ q, alpha q (κ i) * D q i j) 0 0 0 0
    0 * dlogp_X + dlogp_X + 0 + dlogH_X + 0

end

section
variable {ι : Type*} [Fintype ι] [DecidableEq ι]

/-- the methods of a block which `RotationOptimizer` uses: `bound(R, logdet=..., inv=...)`, the bound and its gradient -/
structure RotationBlock (ι : Type*) where
  bound : Matrix ι ι ℝ → ℝ → Matrix ι ι ℝ → ℝ × Matrix ι ι ℝ

/-- `cost` of `RotationOptimizer.rotate`, lines 77-103, for an invertible `R` (otherwise `np.linalg.inv` raises) -/
noncomputable def rotationCost (block1 block2 : RotationBlock ι) (R : Matrix ι ι ℝ) : ℝ × Matrix ι ι ℝ :=
  let invR := R⁻¹
  let logdetR := slogdet R
  let (b1, db1) := block1.bound R logdetR invR
  let (b2, db2) := block2.bound invRᵀ (-logdetR) Rᵀ
  let db2 := -(invRᵀ * db2ᵀ * invRᵀ)
  (-(b1 + b2), -(db1 + db2))

end

/-! ### the rotation of the factor analysis model

As in `doc/source/examples/pca.rst`: `R = RotationOptimizer(RotateGaussianARD(X), RotateGaussianARD(W, alpha), D)` and
`R.rotate()`. -/

section
variable (P : FAParams)

/-- `RotateGaussianARD(X)` after `setup` -/
noncomputable def faBlockX (s : (faNet P).State) : RotationBlock (Fin P.D) where
  bound := fun R logdet inv =>
    let S := ardSetup (P := Fin P.N) (A := Fin P.N) id (s.u FA.x) fun j => faSlot P .x () s.u j
    (ardBoundFixed P.N id (fun j d => faSlot P .x () s.u j ((d, 2) : Fin P.D × Fin 4)) S R logdet,
      ardGradFixed P.N id (fun j d => faSlot P .x () s.u j ((d, 2) : Fin P.D × Fin 4)) S R inv)

/-- `RotateGaussianARD(W, alpha)` after `setup`; `alpha` has no plates but the rotated axis -/
noncomputable def faBlockW (s : (faNet P).State) : RotationBlock (Fin P.D) where
  bound := fun R logdet inv =>
    let S := ardSetup (P := Fin P.M) (fun _ => ()) (s.u FA.w) fun i => faSlot P .w () s.u i
    let a := fun d : Fin P.D => s.phi FA.alpha d (1 : Fin 2)
    (ardBoundUpdate P.M P.M 1 id (fun _ => a) (fun _ => P.a0) (fun _ => P.b0) S R logdet,
      ardGradUpdate P.M P.M 1 id (fun _ => a) P.a0 (fun _ => P.b0) S R inv)

/-- `X.rotate(R, inv, logdet)`, for all plates -/
noncomputable def faRotateX (R inv : Matrix (Fin P.D) (Fin P.D) ℝ) (logdet : ℝ) (s : (faNet P).State) : (faNet P).State :=
  let node := fun j : Fin P.N => gaussianRotate R (some inv) (some logdet)
    { u := s.u FA.x j, phi := s.phi FA.x j, g := s.g FA.x j }
  { s with
    u := Function.update s.u FA.x fun j => (node j).u
    phi := Function.update s.phi FA.x fun j => (node j).phi
    g := Function.update s.g FA.x fun j => (node j).g }

/-- `W.rotate(R, inv, logdet)` -/
noncomputable def faRotateW (R inv : Matrix (Fin P.D) (Fin P.D) ℝ) (logdet : ℝ) (s : (faNet P).State) : (faNet P).State :=
  let node := fun i : Fin P.M => gaussianRotate R (some inv) (some logdet)
    { u := s.u FA.w i, phi := s.phi FA.w i, g := s.g FA.w i }
  { s with
    u := Function.update s.u FA.w fun i => (node i).u
    phi := Function.update s.phi FA.w fun i => (node i).phi
    g := Function.update s.g FA.w fun i => (node i).g }

/-- the end of `RotationOptimizer.rotate`, lines 174-179, with `RotateGaussianARD.rotate`, lines 449-465, where `R` is the
result of the optimisation -/
noncomputable def faRotate (R : Matrix (Fin P.D) (Fin P.D) ℝ) (s : (faNet P).State) : (faNet P).State :=
  let invR := R⁻¹
  let logdetR := slogdet R
  let s := faRotateX P R invR logdetR s
  let s := faRotateW P invRᵀ Rᵀ (-logdetR) s
  (faNet P).update FA.alpha s

/-- the cost function of the optimisation -/
noncomputable def faCost (s : (faNet P).State) (R : Matrix (Fin P.D) (Fin P.D) ℝ) : ℝ :=
  (rotationCost (faBlockX P s) (faBlockW P s) R).1

end

end Verif
