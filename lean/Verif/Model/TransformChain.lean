import Verif.Model.Transform
import Mathlib.Data.Matrix.ColumnRowPartitioned

/-!
# Model of the rotation of Gaussian Markov chains, `transformations.py`

`RotateGaussianMarkovChain` lines 1111-1430, the plate rotation `Q` of `RotateGaussianARD` lines 556-615, 683-737, 790-797 and
955-1087 (one variable axis, without `subset`), and `GaussianARD.rotate_plates`, `gaussian.py` lines 1743-1774.

Notation as in `Model/Transform`.  The plates of the rotated node are `B × L`, where `L` is the rotated plate axis; those of `alpha`
are `A₁ × A₂`, where `A₂` has the length of `L` or length one.
-/

namespace Verif
open Matrix

section
variable {L ι : Type*} [Fintype L] [Fintype ι] [DecidableEq ι]

/-- `np.sum(Q, axis=0)` -/
def colSum (Q : Matrix L L ℝ) (l : L) : ℝ := ∑ i, Q i l

/-- `GaussianARD.rotate_plates` -/
noncomputable def ardRotatePlates (Q : Matrix L L ℝ) (s : L → ExpState (GIx ι)) : L → ExpState (GIx ι) :=
  let u0 : L → ι → ℝ := fun i j => ∑ k, Q i k * g0 (s k).u j
  let phi1 : L → Matrix ι ι ℝ := fun l => (colSum Q l ^ (-2 : ℤ)) • g1 (s l).phi
  let phi0 : L → ι → ℝ := fun l => (-2 : ℝ) • (phi1 l *ᵥ u0 l)
  fun l => { phi := mkG (phi0 l) (phi1 l), u := gaussianMoments (mkG (phi0 l) (phi1 l)), g := gaussianCgf (mkG (phi0 l) (phi1 l)) }

end

section
variable {B L A₁ A₂ ι K : Type*} [Fintype B] [Fintype L] [Fintype A₁] [Fintype A₂] [Fintype ι] [Fintype K]
  [DecidableEq A₁] [DecidableEq A₂] [DecidableEq K] [DecidableEq ι]

/-- what `setup` stores for a plate rotation, lines 590-615; `X_X` and `X_mu` with `precompute`, `X` and `mu` without -/
structure ArdSetupQ (B L A₁ A₂ ι : Type*) where
  CovX : A₁ → L → Matrix ι ι ℝ
  mu2 : A₁ × A₂ → ι → ℝ
  X_X : A₁ → L → ι → L → ι → ℝ
  X_mu : A₁ → L → ι → L → ι → ℝ
  X : B → L → ι → ℝ
  mu : B → L → ι → ℝ

noncomputable def ardSetupQ (πB : B → A₁) (πL : L → A₂) (u : B → L → GIx ι → ℝ) (v : B → L → ι × Fin 4 → ℝ) :
    ArdSetupQ B L A₁ A₂ ι :=
  let mu := fun b l i => v b l (i, 0) / v b l (i, 2)
  let mu2 := fun b l i => v b l (i, 1) / v b l (i, 2)
  let X := fun b l => g0 (u b l)
  { CovX := fun a l => ∑ b with πB b = a, (g1 (u b l) - vecMulVec (X b l) (X b l))
    mu2 := fun a i => ∑ b with πB b = a.1, ∑ l with πL l = a.2, mu2 b l i
    X_X := fun a k i l j => ∑ b with πB b = a, X b k i * X b l j
    X_mu := fun a k i l j => ∑ b with πB b = a, X b k i * mu b l j
    X := X
    mu := mu }

/-- lines 688-715: the rotated second moments, summed to the plates of `alpha` -/
noncomputable def ardSumsQ (precompute : Bool) (πB : B → A₁) (πL : L → A₂) (S : ArdSetupQ B L A₁ A₂ ι) (Q : Matrix L L ℝ) :
    ArdSums (A₁ × A₂) ι :=
  let QCovQ := fun a l => colSum Q l ^ 2 • S.CovX a l
  if precompute then
    let QX_QX := fun a i => of fun c d => ∑ k, ∑ l, S.X_X a k c l d * Q i k * Q i l
    let Xmu := fun a i => of fun c d => ∑ k, S.X_mu a k c i d * Q i k
    { XX := fun a => ∑ i with πL i = a.2, (QX_QX a.1 i + QCovQ a.1 i)
      Xmu := fun a => ∑ i with πL i = a.2, Xmu a.1 i
      mu2 := S.mu2 }
  else
    let QX := fun b i j => ∑ k, Q i k * S.X b k j
    { XX := fun a => (∑ i with πL i = a.2, QCovQ a.1 i)
        + ∑ b with πB b = a.1, ∑ i with πL i = a.2, vecMulVec (QX b i) (QX b i)
      Xmu := fun a => ∑ b with πB b = a.1, ∑ i with πL i = a.2, vecMulVec (QX b i) (S.mu b i)
      mu2 := S.mu2 }

/-- the argument of the entropy, lines 717 and 795: the sum over the plates, `nB` of them for each element of `L` -/
noncomputable def plateLogdet (nB : ℕ) (nD : ℕ) (Q : Matrix L L ℝ) (logdet : ℝ) : ℝ :=
  nB * ∑ l, (logdet + nD * Real.log |colSum Q l|)

/-- `_compute_bound` with `alpha` and `Q` -/
noncomputable def ardBoundUpdateQ (nB r rK : ℕ) (κ : ι → K) (a a0 b0 : A₁ × A₂ → K → ℝ) (S : ArdSums (A₁ × A₂) ι) (R : Matrix ι ι ℝ)
    (logdet : ℝ) (Q : Matrix L L ℝ) : ℝ :=
  let sq := ardSquares S R
  let b := ardRate κ b0 S R
  let alpha := fun q k => a q k / b q k
  let logalpha := fun q k => -Real.log (b q k)
  let logH_X := gaussianEntropy (-2 * plateLogdet nB (Fintype.card ι) Q logdet) 0
  let logp_X := gaussianLogpdf (∑ q, ∑ i, sq q i * alpha q (κ i)) 0 0 ((r * rK : ℕ) * ∑ q, ∑ k, logalpha q k) 0
  let logp_alpha := gammaLogpdf (∑ q, ∑ k, b0 q k * alpha q k) 0 (∑ q, ∑ k, a0 q k * logalpha q k) 0 0
  0 + logp_X + logp_alpha + logH_X + 0

/-- the same without `alpha` -/
noncomputable def ardBoundFixedQ (nB : ℕ) (κ : ι → K) (alpha : A₁ × A₂ → K → ℝ) (S : ArdSums (A₁ × A₂) ι) (R : Matrix ι ι ℝ)
    (logdet : ℝ) (Q : Matrix L L ℝ) : ℝ :=
  let sq := ardSquares S R
  let logH_X := gaussianEntropy (-2 * plateLogdet nB (Fintype.card ι) Q logdet) 0
  let logp_X := gaussianLogpdf (∑ q, ∑ i, sq q i * alpha q (κ i)) 0 0 0 0
  0 + logp_X + 0 + logH_X + 0

/-- `psi`, lines 989-1012, with what is computed before it, lines 960-987 -/
noncomputable def ardPsi (precompute : Bool) (πB : B → A₁) (πL : L → A₂) (κ : ι → K) (S : ArdSetupQ B L A₁ A₂ ι) (R : Matrix ι ι ℝ)
    (Q : Matrix L L ℝ) (v : A₁ × A₂ → K → ℝ) : A₁ → Matrix L L ℝ :=
  let Q_RCovR := fun a l i => (∑ k, ∑ m, R i k * S.CovX a l k m * R i m) * colSum Q l
  let RX := fun b l i => ∑ k, R i k * S.X b l k
  let QXR := fun b i j => ∑ k, Q i k * RX b k j
  let QXr_rX : A₁ → ι → L → L → ℝ :=
    if precompute then
      let Xr_rX := fun a j c d => ∑ m, ∑ n, S.X_X a c m d n * R j m * R j n
      fun a j i d => ∑ k, Xr_rX a j k d * Q i k
    else fun a k i j => ∑ b with πB b = a, QXR b i k * RX b j k
  let RX_mu : A₁ → ι → L → L → ℝ :=
    if precompute then fun a j c d => ∑ k, R j k * S.X_mu a c k d j
    else fun a k i j => ∑ b with πB b = a, RX b i k * S.mu b j k
  fun a i j =>
    (∑ k, QXr_rX a k i j * v (a, πL i) (κ k)) + (∑ k, Q_RCovR a j k * v (a, πL j) (κ k))
      - ∑ k, v (a, πL i) (κ k) * RX_mu a k j i

/-- the gradient by `Q` with `alpha`, lines 1014-1087; the prior of `alpha` has no plates, otherwise `b0 * D_alpha` and
`a0 * D_logalpha` are as wrong as in C59.  `rB` elements of `B` belong to each element of `A₁`, and `rL` of `L` to each of `A₂`. -/
noncomputable def ardGradQ (precompute : Bool) (nB rB rL rK : ℕ) (πB : B → A₁) (πL : L → A₂) (κ : ι → K) (a : A₁ × A₂ → K → ℝ)
    (a0 b0 : ℝ) (S : ArdSetupQ B L A₁ A₂ ι) (R : Matrix ι ι ℝ) (Q : Matrix L L ℝ) : Matrix L L ℝ :=
  let T := ardSumsQ precompute πB πL S Q
  let sq := ardSquares T R
  let b := ardRate κ (fun _ _ => b0) T R
  let alpha := fun q k => a q k / b q k
  let psi := ardPsi precompute πB πL κ S R Q
  let D_logb := psi fun q k => 1 / b q k
  let XX_Dalpha := fun a => -psi (fun q k => alpha q k / b q k * ∑ i with κ i = k, sq q i) a
  let D_logalpha := fun a => -D_logb a
  let DXX_alpha := fun a => (2 : ℝ) • psi alpha a
  let D_XX_alpha := fun a => DXX_alpha a + XX_Dalpha a
  let D_logdetQ := fun j => (Fintype.card ι : ℝ) / colSum Q j
  let D_alpha := fun a => -psi (fun q k => alpha q k / b q k) a
  fun i j =>
    let dQ_logHX := gaussianEntropy (-2 * (nB * D_logdetQ j)) 0
    let dQ_logpX := gaussianLogpdf (∑ a, D_XX_alpha a i j) 0 0 (rB * (∑ a, D_logalpha a i j) * (rL * rK : ℕ)) 0
    let dQ_logpalpha := gammaLogpdf (∑ a, b0 * D_alpha a i j) 0 (∑ a, a0 * D_logalpha a i j) 0 0
    0 * dQ_logpX + dQ_logpX + dQ_logpalpha + dQ_logHX + 0

/-- `bound` of `RotateGaussianARD` with `alpha` and a plate rotation: the bound and its gradients by `R` and `Q`; the prior of
`alpha` has no plates -/
noncomputable def ardBlockQ (precompute : Bool) (nB nL rB rL rK : ℕ) (πB : B → A₁) (πL : L → A₂) (κ : ι → K) (a : A₁ × A₂ → K → ℝ)
    (a0 b0 : ℝ) (S : ArdSetupQ B L A₁ A₂ ι) (R inv : Matrix ι ι ℝ) (logdet : ℝ) (Q : Matrix L L ℝ) :
    ℝ × Matrix ι ι ℝ × Matrix L L ℝ :=
  let T := ardSumsQ precompute πB πL S Q
  (ardBoundUpdateQ nB (rB * rL) rK κ a (fun _ _ => a0) (fun _ _ => b0) T R logdet Q,
    ardGradUpdate (nB * nL) (rB * rL) rK κ a (fun _ => a0) (fun _ _ => b0) T R inv,
    ardGradQ precompute nB rB rL rK πB πL κ a a0 b0 S R Q)

end

/-! ### the chain -/

section
variable {P : Type*} [Fintype P] {M D : Nat} {κ : Type} [Fintype κ]

/-- what `setup` stores, lines 1243-1302 -/
structure ChainSums (P : Type*) (D : Nat) where
  X0X0 : P → Matrix (Fin D) (Fin D) ℝ
  Lambda : P → Matrix (Fin D) (Fin D) ℝ
  XnXn : Matrix (Fin D) (Fin D) ℝ
  Lambda_mu_X0 : Matrix (Fin D) (Fin D) ℝ
  A_XpXn : Matrix (Fin D) (Fin D) ℝ
  A_XpXp_A : Matrix (Fin D) (Fin D) ℝ
  CovA_XpXp : Fin D → ℝ

/-- `<x_{n-1} x_n^T>` with the rows of the inputs, lines 1251-1257 -/
def chainXpXn (u : GMCIx M D → ℝ) (z : InpIx M κ → ℝ) (m : Fin M) : Matrix (Fin D ⊕ κ) (Fin D) ℝ :=
  Matrix.fromRows (c2 u m) (vecMulVec (i0 z m) (c0 u m.succ))

/-- `<x_{n-1} x_{n-1}^T>` with the rows and columns of the inputs, lines 1248 and 1258-1264 -/
def chainXpXp (u : GMCIx M D → ℝ) (z : InpIx M κ → ℝ) (m : Fin M) : Matrix (Fin D ⊕ κ) (Fin D ⊕ κ) ℝ :=
  let UXp := vecMulVec (i0 z m) (c0 u m.castSucc)
  fromBlocks (c1 u m.castSucc) UXpᵀ UXp (of (i1 z m))

/-- `setup` and `_computations_for_A_and_X`, lines 1192-1302.  `u` are the moments of the chains, `v` those of the initial state, `z`
those of the inputs and `A` those of the rows of the dynamics matrix. -/
def chainSetup (u : P → GMCIx M D → ℝ) (v : P → GWIx (Fin D) → ℝ) (A : P → Fin M → Fin D → GIx (Fin D ⊕ κ) → ℝ)
    (z : P → InpIx M κ → ℝ) : ChainSums P D :=
  let Am : P → Fin M → Matrix (Fin D) (Fin D ⊕ κ) ℝ := fun p m => of fun d => g0 (A p m d)
  let CovA := fun p m d => g1 (A p m d) - vecMulVec (g0 (A p m d)) (g0 (A p m d))
  { X0X0 := fun p => c1 (u p) 0
    Lambda := fun p => gw2 (v p)
    XnXn := ∑ p, ∑ m : Fin M, c1 (u p) m.succ
    Lambda_mu_X0 := ∑ p, vecMulVec (gw0 (v p)) (c0 (u p) 0)
    A_XpXn := ∑ p, ∑ m, Am p m * chainXpXn (u p) (z p) m
    A_XpXp_A := ∑ p, ∑ m, Am p m * chainXpXp (u p) (z p) m * (Am p m)ᵀ
    CovA_XpXp := fun d => ∑ p, ∑ m, ∑ i, ∑ j, CovA p m d i j * chainXpXp (u p) (z p) m i j }

/-- `_compute_bound`, lines 1304-1364; `N` is the number of states of one chain and `nP` that of the plates -/
noncomputable def chainBound (N nP : ℕ) (S : ChainSums P D) (R : Matrix (Fin D) (Fin D) ℝ) (logdet : ℝ) : ℝ :=
  let Lambda_R_X0X0 := ∑ p, S.Lambda p * R * S.X0X0 p
  let R_XnXn := R * S.XnXn
  let RA_XpXp_A := R * S.A_XpXp_A
  let sumr := colSum R
  let R_CovA_XpXp := fun d => sumr d * S.CovA_XpXp d
  let logH_X := gaussianEntropy (-2 * (N * nP : ℕ) * logdet) 0
  let yy := (R_XnXn * Rᵀ).trace + (Lambda_R_X0X0 * Rᵀ).trace
  let yz := (R * S.A_XpXn * Rᵀ).trace + (S.Lambda_mu_X0 * Rᵀ).trace
  let zz := (RA_XpXp_A * Rᵀ).trace + ∑ d, R_CovA_XpXp d * sumr d
  gaussianLogpdf yy yz zz 0 0 + logH_X

/-- its gradient, lines 1366-1391 -/
noncomputable def chainGrad (N nP : ℕ) (S : ChainSums P D) (R inv : Matrix (Fin D) (Fin D) ℝ) : Matrix (Fin D) (Fin D) ℝ :=
  let Lambda_R_X0X0 := ∑ p, S.Lambda p * R * S.X0X0 p
  let R_XnXn := R * S.XnXn
  let RA_XpXp_A := R * S.A_XpXp_A
  let R_CovA_XpXp := fun d => colSum R d * S.CovA_XpXp d
  let dyy := (2 : ℝ) • (R_XnXn + Lambda_R_X0X0)
  let dyz := R * (S.A_XpXn + S.A_XpXnᵀ) + S.Lambda_mu_X0
  let dzz := (2 : ℝ) • (RA_XpXp_A + of fun _ j => R_CovA_XpXp j)
  fun i j => gaussianLogpdf (dyy i j) (dyz i j) (dzz i j) 0 0 + gaussianEntropy (-2 * (N * nP : ℕ) * invᵀ i j) 0

/-- the moments of the dynamics and the innovation noise which reach the chain when the noise has the constant precision one:
`GaussianToGaussianGamma` and `WrapToGaussianGamma`, `gaussian.py` lines 2252-2258 and 2339-2348, with the moments `[1, 0]` -/
def unitDyn (A : Fin M → Fin D → GIx (Fin D ⊕ κ) → ℝ) : DynIx M D κ → ℝ :=
  Sum.elim (fun p => g0 (A p.1 p.2.1) p.2.2 * 1)
    (Sum.elim (fun p => g1 (A p.1 p.2.1) p.2.2.1 p.2.2.2 * 1) (Sum.elim (fun _ => 1 * 1) fun _ => 0 + 0))

/-- `block_diag(R, I)`, lines 1184 and 1411 -/
def withInputs [DecidableEq κ] (R : Matrix (Fin D) (Fin D) ℝ) : Matrix (Fin D ⊕ κ) (Fin D ⊕ κ) ℝ := fromBlocks R 0 0 1

/-- what `RotateGaussianMarkovChain.rotate` makes of the rows of the dynamics, lines 1172-1189, with `RotateGaussianARD.rotate`,
lines 457-471 -/
noncomputable def chainRotateA [DecidableEq κ] {B : Type*} (R inv : Matrix (Fin D) (Fin D) ℝ) (logdet : ℝ)
    (s : B → Fin D → ExpState (GIx (Fin D ⊕ κ))) (p : B × Fin D) : ExpState (GIx (Fin D ⊕ κ)) :=
  ardRotatePlates R (fun d => gaussianRotate (withInputs invᵀ) (some (withInputs Rᵀ)) (some (-logdet)) (s p.1 d)) p.2

/-- `RotateGaussianMarkovChain.bound`, lines 1394-1430; `boundA` is `A_rotator.bound(R, inv, logdet, Q)` -/
noncomputable def chainBlock [DecidableEq κ] (N nP : ℕ) (S : ChainSums P D)
    (boundA : Matrix (Fin D ⊕ κ) (Fin D ⊕ κ) ℝ → Matrix (Fin D ⊕ κ) (Fin D ⊕ κ) ℝ → ℝ → Matrix (Fin D) (Fin D) ℝ →
      ℝ × Matrix (Fin D ⊕ κ) (Fin D ⊕ κ) ℝ × Matrix (Fin D) (Fin D) ℝ) : RotationBlock (Fin D) where
  bound := fun R logdet inv =>
    let bound_X := chainBound N nP S R logdet
    let d_bound_X := chainGrad N nP S R inv
    let (bound_A, dR_bound_A, dQ_bound_A) := boundA (withInputs invᵀ) (withInputs Rᵀ) (-logdet) R
    let dR_bound_A := dR_bound_A.toBlocks₁₁
    let dR_bound_A := -(invᵀ * dR_bound_Aᵀ * invᵀ)
    (bound_X + bound_A, d_bound_X + dR_bound_A + dQ_bound_A)

end

end Verif
