import Verif.Model.GaussianChain
import Mathlib.LinearAlgebra.Matrix.Kronecker

/-!
# Model of the rotations and translations of Gaussian posteriors

`gaussian.py`: `_GaussianTemplate.translate` lines 1288-1343, `Gaussian.rotate` 1451-1494 (with plate rotation `Q`: `gaussianRotateQ`),
`Gaussian.rotate_matrix` 1496-1556 (without `Q`), `GaussianARD.rotate` 1693-1741, `GaussianGamma.translate` 1850-1897,
`GaussianGamma.rotate` 1900-1945, `rotate_mean` and `rotate_covariance` 2573-2673; `gaussian_markov_chain.py`:
`GaussianMarkovChainMoments.rotate` 51-65, `TemplateGaussianMarkovChainDistribution.rotate` 167-184,
`GaussianMarkovChain.rotate` 911-927.

Simplifications: one plate at a time, real numbers; `np.linalg.inv` is the exact inverse (of an invertible matrix; for a
singular one it raises) and `np.linalg.slogdet(R)[1]` the logarithm of the absolute value of the determinant; the `debug`
branches, which recompute and compare, are left out.
-/

namespace Verif
open Matrix

/-- what a node of the exponential family stores: `self.u`, `self.phi`, `self.g` -/
@[ext] structure ExpState (I : Type*) where
  u : I → ℝ
  phi : I → ℝ
  g : ℝ

section
variable {ι : Type*} [Fintype ι] [DecidableEq ι]

/-- `slogdet(R)[1]`; `Real.log` is the logarithm of the absolute value -/
noncomputable def slogdet (R : Matrix ι ι ℝ) : ℝ := Real.log R.det

/-- `Gaussian.rotate`; `inv` and `logdet` are the optional arguments -/
noncomputable def gaussianRotate (R : Matrix ι ι ℝ) (inv : Option (Matrix ι ι ℝ)) (logdet : Option ℝ)
    (s : ExpState (GIx ι)) : ExpState (GIx ι) :=
  let invR := inv.getD R⁻¹
  let logdetR := logdet.getD (slogdet R)
  { phi := mkG (invRᵀ *ᵥ g0 s.phi) (invRᵀ * g1 s.phi * invR)
    u := mkG (R *ᵥ g0 s.u) (R * g1 s.u * Rᵀ)
    g := s.g - logdetR }

/-- `_GaussianTemplate.translate` -/
noncomputable def gaussianTranslate (b : ι → ℝ) (s : ExpState (GIx ι)) : ExpState (GIx ι) :=
  let x := g0 s.u
  let xb := vecMulVec x b
  let bx := xbᵀ
  let bb := vecMulVec b b
  let L := (-2 : ℝ) • g1 s.phi
  let Lb := L *ᵥ b
  { u := mkG (g0 s.u + b) (g1 s.u + xb + bx + bb)
    phi := mkG (g0 s.phi + Lb) (g1 s.phi)
    g := s.g + -0.5 * (b ⬝ᵥ Lb + 2 * (x ⬝ᵥ Lb)) }

/-- `GaussianGamma.rotate` -/
noncomputable def ggRotate (R : Matrix ι ι ℝ) (inv : Option (Matrix ι ι ℝ)) (logdet : Option ℝ)
    (s : ExpState (GGIx ι)) : ExpState (GGIx ι) :=
  let invR := inv.getD R⁻¹
  let logdetR := logdet.getD (slogdet R)
  { u := mkGG (R *ᵥ gg0 s.u) (R * gg1 s.u * Rᵀ) (gg2 s.u) (gg3 s.u)
    phi := mkGG (invRᵀ *ᵥ gg0 s.phi) (invRᵀ * gg1 s.phi * invR) (gg2 s.phi) (gg3 s.phi)
    g := s.g - logdetR }

/-- `GaussianGamma.translate`; `g` is left as it is -/
noncomputable def ggTranslate (b : ι → ℝ) (s : ExpState (GGIx ι)) : ExpState (GGIx ι) :=
  let tau := gg2 s.u
  let x := fun i => gg0 s.u i / tau
  let xb := vecMulVec x b
  let bx := xbᵀ
  let bb := vecMulVec b b
  let L := (-2 : ℝ) • gg1 s.phi
  let dtau := -0.5 * ((∑ i, ∑ j, L i j * b i * b j) + 2 * ∑ i, ∑ j, L i j * b i * x j)
  { u := mkGG (gg0 s.u + tau • b) (gg1 s.u + tau • (xb + bx + bb)) (gg2 s.u) (gg3 s.u)
    phi := mkGG (gg0 s.phi + L *ᵥ b) (gg1 s.phi) (gg2 s.phi + dtau) (gg3 s.phi)
    g := s.g }

end

/-! ### arrays with several variable axes -/

section
variable {r : Nat} {dims : Fin r → Nat}

/-- `rotate_mean(mu, R, axis=k, ndim=r)`: the sum over the axis `k` -/
def rotateMean (k : Fin r) (R : Matrix (Fin (dims k)) (Fin (dims k)) ℝ) (mu : (∀ l, Fin (dims l)) → ℝ) :
    (∀ l, Fin (dims l)) → ℝ :=
  fun x => ∑ j, R (x k) j * mu (Function.update x k j)

/-- `left_rotate_covariance` and then `right_rotate_covariance` -/
def rotateCovariance (k : Fin r) (R : Matrix (Fin (dims k)) (Fin (dims k)) ℝ)
    (C : Matrix (∀ l, Fin (dims l)) (∀ l, Fin (dims l)) ℝ) : Matrix (∀ l, Fin (dims l)) (∀ l, Fin (dims l)) ℝ :=
  let left : Matrix (∀ l, Fin (dims l)) (∀ l, Fin (dims l)) ℝ := fun x y => ∑ j, R (x k) j * C (Function.update x k j) y
  fun x y => ∑ j, R (y k) j * left x (Function.update y k j)

/-- the check of `axis`, e.g. lines 2654-2661 -/
def axisOf (r : Nat) (axis : Int) : Except PyErr (Fin r) :=
  if h : axis < -(r : Int) ∨ axis ≥ r then .error .valueError
  else .ok ⟨(if axis ≥ 0 then axis else axis + r).toNat, by split <;> omega⟩

/-- `GaussianARD.rotate` for the axis `k` -/
noncomputable def ardRotate (k : Fin r) (R : Matrix (Fin (dims k)) (Fin (dims k)) ℝ)
    (inv : Option (Matrix (Fin (dims k)) (Fin (dims k)) ℝ)) (logdet : Option ℝ) (s : ExpState (GIx (∀ l, Fin (dims l)))) :
    ExpState (GIx (∀ l, Fin (dims l))) :=
  let invR := inv.getD R⁻¹
  let logdetR := logdet.getD (slogdet R)
  { phi := mkG (rotateMean k invRᵀ (g0 s.phi)) (rotateCovariance k invRᵀ (g1 s.phi))
    u := mkG (rotateMean k R (g0 s.u)) (rotateCovariance k R (g1 s.u))
    g := s.g - logdetR * ((((List.ofFn dims).eraseIdx k).prod : ℕ) : ℝ) }

end

/-! ### a vector as a matrix -/

/-- `Gaussian.rotate_matrix`, the new natural parameters; the vector has `D1 * D2` components, in the order of the rows
of the matrix -/
noncomputable def rotateMatrixPhi {α β : Type*} [Fintype α] [DecidableEq α] [Fintype β] [DecidableEq β] (R1 : Matrix α α ℝ)
    (R2 : Matrix β β ℝ) (phi : GIx (α × β) → ℝ) : GIx (α × β) → ℝ :=
  let inv1 := R1⁻¹
  let inv2 := R2⁻¹
  let phi0 : Matrix α β ℝ := fun a b => g0 phi (a, b)
  let phi0 := inv1ᵀ * phi0 * inv2
  let phi1 : α → β → α → β → ℝ := fun a b c d => g1 phi (a, b) (c, d)
  let phi1 := fun i b c d => ∑ a, inv1ᵀ i a * phi1 a b c d
  let phi1 := fun a b i d => ∑ c, inv1ᵀ i c * phi1 a b c d
  let phi1 := fun a i c d => ∑ b, inv2ᵀ i b * phi1 a b c d
  let phi1 := fun a b c i => ∑ d, inv2ᵀ i d * phi1 a b c d
  mkG (fun p => phi0 p.1 p.2) fun p q => phi1 p.1 p.2 q.1 q.2

noncomputable def gaussianRotateMatrix {α β : Type*} [Fintype α] [DecidableEq α] [Fintype β] [DecidableEq β]
    (R1 : Matrix α α ℝ) (R2 : Matrix β β ℝ) (s : ExpState (GIx (α × β))) : ExpState (GIx (α × β)) :=
  let phi := rotateMatrixPhi R1 R2 s.phi
  { phi := phi, u := gaussianMoments phi, g := gaussianCgf phi }

/-! ### rotation of the plates -/

/-- `Gaussian.rotate` with the argument `Q`, for a node with one plate axis; lines 1474-1490.  The moments and the
normaliser are recomputed from the parameters. -/
noncomputable def gaussianRotateQ {P : Nat} {ι : Type*} [Fintype ι] [DecidableEq ι] (R : Matrix ι ι ℝ)
    (inv : Option (Matrix ι ι ℝ)) (Q : Matrix (Fin P) (Fin P) ℝ) (s : Fin P → ExpState (GIx ι)) : Fin P → ExpState (GIx ι) :=
  let invR := inv.getD R⁻¹
  let u0 : Fin P → ι → ℝ := fun i j => ∑ k, Q i k * g0 (s k).u j
  let sumQ : Fin P → ℝ := fun d => ∑ i, Q i d
  let phi1 : Fin P → Matrix ι ι ℝ := fun d => (sumQ d ^ (-2 : ℤ)) • g1 (s d).phi
  let phi0 : Fin P → ι → ℝ := fun d => ((-2 : ℝ) • phi1 d) *ᵥ u0 d
  fun d =>
    let phi := mkG (invRᵀ *ᵥ phi0 d) (invRᵀ * phi1 d * invR)
    { phi := phi, u := gaussianMoments phi, g := gaussianCgf phi }

/-! ### Gaussian Markov chains -/

/-- `GaussianMarkovChain.rotate` -/
noncomputable def gmcRotate {M D : Nat} (R : Matrix (Fin D) (Fin D) ℝ) (inv : Option (Matrix (Fin D) (Fin D) ℝ))
    (logdet : Option ℝ) (s : ExpState (GMCIx M D)) : ExpState (GMCIx M D) :=
  let logdetR := logdet.getD (slogdet R)
  let invR := inv.getD R⁻¹
  { u := mkC (fun n => R *ᵥ c0 s.u n) (fun n => R * c1 s.u n * Rᵀ) fun n => R * c2 s.u n * Rᵀ
    phi := mkC (fun n => invRᵀ *ᵥ c0 s.phi n) (fun n => invRᵀ * c1 s.phi n * invR) fun n => invRᵀ * c2 s.phi n * invR
    g := s.g + -((M + 1 : ℕ) : ℝ) * logdetR }

end Verif
