import Verif.Model.Transform
import Verif.Props.FactorModel
import Verif.Props.Rotate

/-!
# C58: the rotation cost is minus the lower bound, and C59: its gradient
-/

namespace Verif
open Spec Matrix

section
variable {ι : Type*} [Fintype ι] [DecidableEq ι]

/-- the terms of one element of a Gaussian node in the lower bound: `v` are the moments of the parent -/
noncomputable def Spec.ardTerm (v : ι × Fin 4 → ℝ) (s : ExpState (GIx ι)) : ℝ :=
  ardPhi v ⬝ᵥ s.u + ardCgfP v - (s.g + s.phi ⬝ᵥ s.u)

/-- the terms of one element of a gamma node with the parameters `phi` -/
noncomputable def Spec.gammaTerm (ua ub phi : Fin 2 → ℝ) : ℝ :=
  gammaPhi ua ub ⬝ᵥ gammaMoments phi + gammaCgfP ua ub - (gammaCgf phi + phi ⬝ᵥ gammaMoments phi)

theorem frob_rotate {R : Matrix ι ι ℝ} (hR : R.det ≠ 0) (Φ U : Matrix ι ι ℝ) :
    frob (R⁻¹ᵀ * Φ * R⁻¹) (R * U * Rᵀ) = frob Φ U := by
  have h1 : R⁻¹ * (R * U * Rᵀ) = U * Rᵀ := by
    rw [Matrix.mul_assoc, ← Matrix.mul_assoc, nonsing_inv_mul _ hR.isUnit, Matrix.one_mul]
  have h2 : Rᵀ * R⁻¹ᵀ = 1 := by rw [← transpose_mul, nonsing_inv_mul _ hR.isUnit, transpose_one]
  have h3 : (R⁻¹ᵀ * Φ * R⁻¹)ᵀ = R⁻¹ᵀ * Φᵀ * R⁻¹ := by
    rw [transpose_mul, transpose_mul, transpose_transpose, Matrix.mul_assoc]
  rw [frob_eq_trace, frob_eq_trace, h3, Matrix.mul_assoc, h1, Matrix.mul_assoc, trace_mul_comm, Matrix.mul_assoc,
    Matrix.mul_assoc, h2, Matrix.mul_one]

theorem entropy_rotate {R : Matrix ι ι ℝ} (hR : R.det ≠ 0) (s : ExpState (GIx ι)) :
    (gaussianRotate R none none s).g + (gaussianRotate R none none s).phi ⬝ᵥ (gaussianRotate R none none s).u
      = s.g + s.phi ⬝ᵥ s.u - slogdet R := by
  have e1 : (gaussianRotate R none none s).phi ⬝ᵥ (gaussianRotate R none none s).u = s.phi ⬝ᵥ s.u := by
    conv_rhs => rw [← mkG_eta s.phi, ← mkG_eta s.u]
    change mkG _ _ ⬝ᵥ mkG _ _ = _
    rw [mkG_dotProduct, mkG_dotProduct]
    simp only [mkG_g0, mkG_g1, Option.getD_none]
    rw [frob_rotate hR, dotProduct_comm, rotate_dot hR, dotProduct_comm]
  rw [e1]
  change s.g - _ + _ = _
  simp only [Option.getD_none]
  ring

/-- the expected log-density of one element -/
theorem ard_quadratic (v : ι × Fin 4 → ℝ) (hv : ∀ i, v (i, 2) ≠ 0) (u : GIx ι → ℝ) :
    ardPhi v ⬝ᵥ u + ardCgfP v
      = ∑ i, (-0.5 * ((g1 u i i - 2 * (g0 u i * (v (i, 0) / v (i, 2))) + v (i, 1) / v (i, 2)) * v (i, 2))
          + 0.5 * v (i, 3)) := by
  have hd : frob (diagonal fun i => -0.5 * v (i, 2)) (g1 u) = ∑ i, -0.5 * v (i, 2) * g1 u i i := by
    unfold frob
    refine Finset.sum_congr rfl fun i _ => ?_
    rw [Finset.sum_eq_single i (fun j _ hj => by rw [diagonal_apply_ne' _ hj, zero_mul]) (by simp), diagonal_apply_eq]
  unfold ardPhi ardCgfP
  rw [mkG_dotProduct, hd, dotProduct, Finset.mul_sum, Finset.mul_sum, ← Finset.sum_add_distrib, ← Finset.sum_add_distrib,
    ← Finset.sum_add_distrib]
  refine Finset.sum_congr rfl fun i _ => ?_
  have := hv i
  field_simp
  ring

end

section
variable {P A ι K : Type*} [Fintype P] [Fintype A] [Fintype ι] [Fintype K] [DecidableEq A] [DecidableEq K] [DecidableEq ι]

omit [Fintype ι] [Fintype K] [DecidableEq K] [DecidableEq ι] in
theorem sum_fiber (π : P → A) {r : ℕ} (hr : ∀ a, (Finset.univ.filter fun p => π p = a).card = r) (f : A → ℝ) :
    ∑ p, f (π p) = r * ∑ a, f a := by
  rw [← Finset.sum_fiberwise Finset.univ π, Finset.mul_sum]
  refine Finset.sum_congr rfl fun a _ => ?_
  rw [Finset.sum_congr rfl fun p hp => by rw [(Finset.mem_filter.1 hp).2], Finset.sum_const, hr, nsmul_eq_mul]

/-- the squares are the sums of the expected squares of the elements after the rotation -/
theorem ardSquares_eq (π : P → A) (v : P → ι × Fin 4 → ℝ) (s : P → ExpState (GIx ι)) (R : Matrix ι ι ℝ) (a : A) (i : ι) :
    ardSquares (ardSetup π (fun p => (s p).u) v) R a i
      = ∑ p with π p = a, (g1 (gaussianRotate R none none (s p)).u i i
          - 2 * (g0 (gaussianRotate R none none (s p)).u i * (v p (i, 0) / v p (i, 2))) + v p (i, 1) / v p (i, 2)) := by
  unfold ardSquares ardSetup
  simp only [Finset.sum_add_distrib, Finset.sum_sub_distrib]
  congr 1
  · congr 1
    · rw [Matrix.mul_sum]
      simp only [Matrix.sum_apply, Finset.sum_mul]
      rw [Finset.sum_comm]
      refine Finset.sum_congr rfl fun p _ => ?_
      exact (Matrix.mul_apply (M := R * g1 (s p).u) (N := Rᵀ)).symm
    · rw [← Finset.mul_sum]
      congr 1
      simp only [Matrix.sum_apply, Finset.mul_sum]
      rw [Finset.sum_comm]
      refine Finset.sum_congr rfl fun p _ => ?_
      change _ = (R *ᵥ g0 (s p).u) i * _
      rw [mulVec, dotProduct, Finset.sum_mul]
      exact Finset.sum_congr rfl fun k _ => by rw [vecMulVec_apply, mul_assoc]
  · rw [Finset.sum_apply]

/-- the expected log-densities of all elements, for any moments of `alpha` -/
theorem ard_terms (π : P → A) (κ : ι → K) (m : P → ι → Fin 2 → ℝ) (t t' : A → K → Fin 2 → ℝ) (ht : ∀ a k, t a k 0 ≠ 0)
    (ht' : ∀ a k, t' a k 0 ≠ 0) (s : P → ExpState (GIx ι)) {R : Matrix ι ι ℝ} (hR : R.det ≠ 0) :
    ∑ p, ardTerm (fun i => wrap0 (m p i.1) (t' (π p) (κ i.1)) i.2) (gaussianRotate R none none (s p))
      = -0.5 * ∑ a, ∑ i, ardSquares (ardSetup π (fun p => (s p).u) fun p i => wrap0 (m p i.1) (t (π p) (κ i.1)) i.2) R a i
            * t' a (κ i) 0
        + 0.5 * (∑ p, ∑ i, t' (π p) (κ i) 1) + Fintype.card P * slogdet R - ∑ p, ((s p).g + (s p).phi ⬝ᵥ (s p).u) := by
  have hw : ∀ (x y : Fin 2 → ℝ), y 0 ≠ 0 → wrap0 x y 0 / wrap0 x y 2 = x 0 ∧ wrap0 x y 1 / wrap0 x y 2 = x 1 := by
    intro x y hy
    have e0 : wrap0 x y 0 = x 0 * y 0 := rfl
    have e1 : wrap0 x y 1 = x 1 * y 0 := rfl
    have e2 : wrap0 x y 2 = 1 * y 0 := rfl
    rw [e0, e1, e2, one_mul]
    constructor <;> field_simp
  have e1 : ∀ p, ardTerm (fun i => wrap0 (m p i.1) (t' (π p) (κ i.1)) i.2) (gaussianRotate R none none (s p))
      = ∑ i, (-0.5 * ((g1 (gaussianRotate R none none (s p)).u i i
          - 2 * (g0 (gaussianRotate R none none (s p)).u i * m p i 0) + m p i 1) * t' (π p) (κ i) 0)
          + 0.5 * t' (π p) (κ i) 1) + slogdet R - ((s p).g + (s p).phi ⬝ᵥ (s p).u) := by
    intro p
    unfold ardTerm
    rw [entropy_rotate hR, ard_quadratic _ fun i => by
      change 1 * t' (π p) (κ i) 0 ≠ 0
      rw [one_mul]; exact ht' _ _]
    have : ∀ i, wrap0 (m p i) (t' (π p) (κ i)) 3 = t' (π p) (κ i) 1 := fun i => zero_add _
    have h2 : ∀ i, wrap0 (m p i) (t' (π p) (κ i)) 2 = t' (π p) (κ i) 0 := fun i => one_mul _
    simp only [(hw _ _ (ht' _ _)).1, (hw _ _ (ht' _ _)).2, this]
    simp only [h2]
    ring
  have e2 : ∀ a i, ardSquares (ardSetup π (fun p => (s p).u) fun p i => wrap0 (m p i.1) (t (π p) (κ i.1)) i.2) R a i
      = ∑ p with π p = a, (g1 (gaussianRotate R none none (s p)).u i i
          - 2 * (g0 (gaussianRotate R none none (s p)).u i * m p i 0) + m p i 1) := by
    intro a i
    rw [ardSquares_eq]
    simp only [(hw _ _ (ht _ _)).1, (hw _ _ (ht _ _)).2]
  rw [Finset.sum_congr rfl fun p _ => e1 p, Finset.sum_congr rfl fun a _ => Finset.sum_congr rfl fun i _ => by rw [e2 a i]]
  rw [Finset.sum_sub_distrib, Finset.sum_add_distrib, Finset.sum_const, Finset.card_univ, nsmul_eq_mul]
  congr 2
  rw [Finset.sum_congr rfl fun p _ => Finset.sum_add_distrib, Finset.sum_add_distrib]
  simp only [Finset.mul_sum (a := (0.5 : ℝ)), Finset.mul_sum (a := (-0.5 : ℝ))]
  congr 1
  rw [← Finset.sum_fiberwise Finset.univ π]
  refine Finset.sum_congr rfl fun a _ => ?_
  rw [Finset.sum_comm]
  refine Finset.sum_congr rfl fun i _ => ?_
  rw [Finset.sum_mul, Finset.mul_sum]
  refine Finset.sum_congr rfl fun p hp => ?_
  rw [(Finset.mem_filter.1 hp).2]

/-- **C58** without `alpha`: for every invertible rotation, the terms of `X` in the lower bound after rotating it are the
bound which `RotateGaussianARD` computes plus a constant. -/
theorem C58_ard_fixed (π : P → A) (κ : ι → K) (m : P → ι → Fin 2 → ℝ) (t : A → K → Fin 2 → ℝ) (ht : ∀ a k, t a k 0 ≠ 0)
    (s : P → ExpState (GIx ι)) : ∃ C, ∀ R : Matrix ι ι ℝ, R.det ≠ 0 →
      ∑ p, ardTerm (fun i => wrap0 (m p i.1) (t (π p) (κ i.1)) i.2) (gaussianRotate R none none (s p))
        = ardBoundFixed (Fintype.card P) κ (fun a k => t a k 0)
            (ardSetup π (fun p => (s p).u) fun p i => wrap0 (m p i.1) (t (π p) (κ i.1)) i.2) R (slogdet R) + C := by
  refine ⟨0.5 * (∑ p, ∑ i, t (π p) (κ i) 1) - ∑ p, ((s p).g + (s p).phi ⬝ᵥ (s p).u), fun R hR => ?_⟩
  rw [ard_terms π κ m t t ht ht s hR]
  unfold ardBoundFixed gaussianEntropy gaussianLogpdf
  simp only
  ring

/-- the parameters of `alpha` after its update -/
noncomputable def Spec.alphaPhi (π : P → A) (κ : ι → K) (a0 b0 : A → K → ℝ) (m : P → ι → Fin 2 → ℝ)
    (u : P → GIx ι → ℝ) (a : A) (k : K) : Fin 2 → ℝ :=
  gammaPhi (gammaPriorFixed (a0 a k)) (gammaFixed (b0 a k))
    + ∑ p with π p = a, ∑ i with κ i = k, wrap0MsgT (fun j => ardMsg (u p) (i, j)) (m p i)

theorem alphaPhi_eq (π : P → A) (κ : ι → K) {r rK : ℕ} (hr : ∀ a, (Finset.univ.filter fun p => π p = a).card = r)
    (hrK : ∀ k, (Finset.univ.filter fun i => κ i = k).card = rK) (a0 b0 : A → K → ℝ) (m : P → ι → Fin 2 → ℝ)
    (t : A → K → Fin 2 → ℝ) (ht : ∀ a k, t a k 0 ≠ 0) (s : P → ExpState (GIx ι)) (R : Matrix ι ι ℝ) (a : A) (k : K) :
    alphaPhi π κ a0 b0 m (fun p => (gaussianRotate R none none (s p)).u) a k
      = ![-ardRate κ b0 (ardSetup π (fun p => (s p).u) fun p i => wrap0 (m p i.1) (t (π p) (κ i.1)) i.2) R a k,
          a0 a k + 0.5 * (r * rK : ℕ)] := by
  have hw : ∀ (x y : Fin 2 → ℝ), y 0 ≠ 0 → wrap0 x y 0 / wrap0 x y 2 = x 0 ∧ wrap0 x y 1 / wrap0 x y 2 = x 1 := by
    intro x y hy
    have e0 : wrap0 x y 0 = x 0 * y 0 := rfl
    have e1 : wrap0 x y 1 = x 1 * y 0 := rfl
    have e2 : wrap0 x y 2 = 1 * y 0 := rfl
    rw [e0, e1, e2, one_mul]
    constructor <;> field_simp
  funext j
  unfold alphaPhi
  rw [Pi.add_apply, Finset.sum_apply]
  simp only [Finset.sum_apply]
  fin_cases j
  · change -b0 a k + ∑ p with π p = a, ∑ i with κ i = k, (g0 (gaussianRotate R none none (s p)).u i * m p i 0
      + -0.5 * m p i 1 + -0.5 * g1 (gaussianRotate R none none (s p)).u i i * 1)
      = -ardRate κ b0 _ R a k
    unfold ardRate
    simp only [ardSquares_eq, (hw _ _ (ht _ _)).1, (hw _ _ (ht _ _)).2]
    rw [Finset.sum_comm, neg_add, ← neg_mul, Finset.mul_sum]
    congr 1
    refine Finset.sum_congr rfl fun i _ => ?_
    rw [Finset.mul_sum]
    exact Finset.sum_congr rfl fun p _ => by ring
  · change 1 * a0 a k + ∑ p with π p = a, ∑ i with κ i = k, (0.5 : ℝ) = a0 a k + 0.5 * (r * rK : ℕ)
    rw [Finset.sum_const, Finset.sum_const, hr, hrK]
    push_cast
    simp only [nsmul_eq_mul]
    ring

theorem gammaTerm_eq (a0 b0 a b : ℝ) (hb : b ≠ 0) :
    gammaTerm (gammaPriorFixed a0) (gammaFixed b0) ![-b, a]
      = -(b0 * (a / b)) - a0 * Real.log b + (a0 * digamma a + a0 * Real.log b0 - gammaln a0 + gammaln a + a - a * digamma a) := by
  simp only [gammaTerm, gammaPhi, gammaPriorFixed, gammaFixed, gammaMoments, gammaCgfP, gammaCgf, dotProduct,
    Fin.sum_univ_two, Matrix.cons_val_zero, Matrix.cons_val_one, neg_neg]
  field_simp
  ring

/-- the squares are nonnegative when the moments belong to distributions -/
theorem ardSquares_nonneg (π : P → A) (κ : ι → K) (m : P → ι → Fin 2 → ℝ) (hm : ∀ p i, m p i 0 ^ 2 ≤ m p i 1)
    (t : A → K → Fin 2 → ℝ) (ht : ∀ a k, t a k 0 ≠ 0) (s : P → ExpState (GIx ι)) (hs : ∀ p, SecondMoment (s p).u)
    (R : Matrix ι ι ℝ) (a : A) (i : ι) :
    0 ≤ ardSquares (ardSetup π (fun p => (s p).u) fun p i => wrap0 (m p i.1) (t (π p) (κ i.1)) i.2) R a i := by
  rw [ardSquares_eq]
  refine Finset.sum_nonneg fun p _ => ?_
  have e0 : wrap0 (m p i) (t (π p) (κ i)) 0 / wrap0 (m p i) (t (π p) (κ i)) 2 = m p i 0 := by
    change m p i 0 * t (π p) (κ i) 0 / (1 * t (π p) (κ i) 0) = _
    have := ht (π p) (κ i)
    field_simp
  have e1 : wrap0 (m p i) (t (π p) (κ i)) 1 / wrap0 (m p i) (t (π p) (κ i)) 2 = m p i 1 := by
    change m p i 1 * t (π p) (κ i) 0 / (1 * t (π p) (κ i) 0) = _
    have := ht (π p) (κ i)
    field_simp
  simp only [e0, e1]
  obtain ⟨C, hC, e⟩ := hs p
  have h1 : g1 (gaussianRotate R none none (s p)).u
      = R * C * Rᵀ + vecMulVec (g0 (gaussianRotate R none none (s p)).u) (g0 (gaussianRotate R none none (s p)).u) := by
    change R * g1 (s p).u * Rᵀ = _ + vecMulVec (R *ᵥ g0 (s p).u) (R *ᵥ g0 (s p).u)
    rw [e, Matrix.mul_add, Matrix.add_mul, mul_vecMulVec, vecMulVec_mul, vecMul_transpose]
  have h2 : 0 ≤ (R * C * Rᵀ) i i := by
    have := hC.mul_mul_conjTranspose_same R
    rw [conjTranspose_eq_transpose_of_trivial] at this
    exact this.diag_nonneg
  rw [h1, Matrix.add_apply, vecMulVec_apply]
  nlinarith [hm p i, sq_nonneg (g0 (gaussianRotate R none none (s p)).u i - m p i 0)]

theorem ardRate_pos (π : P → A) (κ : ι → K) (b0 : A → K → ℝ) (hb0 : ∀ q k, 0 < b0 q k) (m : P → ι → Fin 2 → ℝ)
    (hm : ∀ p i, m p i 0 ^ 2 ≤ m p i 1) (t : A → K → Fin 2 → ℝ) (ht : ∀ a k, 0 < t a k 0) (s : P → ExpState (GIx ι))
    (hs : ∀ p, SecondMoment (s p).u) (R : Matrix ι ι ℝ) (q : A) (k : K) :
    0 < ardRate κ b0 (ardSetup π (fun p => (s p).u) fun p i => wrap0 (m p i.1) (t (π p) (κ i.1)) i.2) R q k := by
  unfold ardRate
  have := Finset.sum_nonneg fun i (_ : i ∈ Finset.univ.filter fun i => κ i = k) =>
    ardSquares_nonneg π κ m hm t (fun a k => (ht a k).ne') s hs R q i
  linarith [hb0 q k]

/-- the constant in the bound with `alpha` -/
noncomputable def ardConst (π : P → A) (κ : ι → K) (a a0 b0 : A → K → ℝ) : ℝ :=
  0.5 * (∑ p, ∑ i, digamma (a (π p) (κ i)))
    + ∑ q, ∑ k, (a0 q k * digamma (a q k) + a0 q k * Real.log (b0 q k) - gammaln (a0 q k) + gammaln (a q k) + a q k
        - a q k * digamma (a q k))

/-- with the shape which an update of `alpha` gives; the constant does not depend on the state -/
theorem ard_update_explicit (π : P → A) (κ : ι → K) {r rK : ℕ} (hr : ∀ a, (Finset.univ.filter fun p => π p = a).card = r)
    (hrK : ∀ k, (Finset.univ.filter fun i => κ i = k).card = rK) (a a0 b0 : A → K → ℝ)
    (ha : ∀ q k, a q k = a0 q k + 0.5 * (r * rK : ℕ)) (hb0 : ∀ q k, 0 < b0 q k) (m : P → ι → Fin 2 → ℝ)
    (hm : ∀ p i, m p i 0 ^ 2 ≤ m p i 1) (t : A → K → Fin 2 → ℝ) (ht : ∀ a k, 0 < t a k 0) (s : P → ExpState (GIx ι))
    (hs : ∀ p, SecondMoment (s p).u) (ha0 : ∀ q k, 0 < a0 q k) (R : Matrix ι ι ℝ) (hR : R.det ≠ 0) :
      ∑ p, ardTerm (fun i => wrap0 (m p i.1) (gammaMoments
            (alphaPhi π κ a0 b0 m (fun p => (gaussianRotate R none none (s p)).u) (π p) (κ i.1))) i.2)
          (gaussianRotate R none none (s p))
        + ∑ q, ∑ k, gammaTerm (gammaPriorFixed (a0 q k)) (gammaFixed (b0 q k))
            (alphaPhi π κ a0 b0 m (fun p => (gaussianRotate R none none (s p)).u) q k)
        = ardBoundUpdate (Fintype.card P) r rK κ a a0 b0
            (ardSetup π (fun p => (s p).u) fun p i => wrap0 (m p i.1) (t (π p) (κ i.1)) i.2) R (slogdet R)
          + (ardConst π κ a a0 b0 - ∑ p, ((s p).g + (s p).phi ⬝ᵥ (s p).u)) := by
  unfold ardConst
  have hb : ∀ q k, 0 < ardRate κ b0 (ardSetup π (fun p => (s p).u) fun p i => wrap0 (m p i.1) (t (π p) (κ i.1)) i.2) R q k :=
    fun q k => ardRate_pos π κ b0 hb0 m hm t ht s hs R q k
  have hap : ∀ q k, 0 < a q k := fun q k => by rw [ha]; have := ha0 q k; positivity
  have e := alphaPhi_eq π κ hr hrK a0 b0 m t (fun a k => (ht a k).ne') s R
  generalize hSd : ardSetup π (fun p => (s p).u) (fun p i => wrap0 (m p i.1) (t (π p) (κ i.1)) i.2) = S at *
  have et : ∀ q k, gammaMoments (alphaPhi π κ a0 b0 m (fun p => (gaussianRotate R none none (s p)).u) q k)
      = ![a q k / ardRate κ b0 S R q k, digamma (a q k) - Real.log (ardRate κ b0 S R q k)] := by
    intro q k
    rw [e, ← ha]
    simp only [gammaMoments, Matrix.cons_val_zero, Matrix.cons_val_one, neg_neg]
  have h1 := ard_terms π κ m t (fun q k => gammaMoments
    (alphaPhi π κ a0 b0 m (fun p => (gaussianRotate R none none (s p)).u) q k)) (fun a k => (ht a k).ne')
    (fun q k => by rw [et]; exact (div_pos (hap q k) (hb q k)).ne') s hR
  rw [h1, hSd]
  have h2 : ∀ q k, gammaTerm (gammaPriorFixed (a0 q k)) (gammaFixed (b0 q k))
      (alphaPhi π κ a0 b0 m (fun p => (gaussianRotate R none none (s p)).u) q k)
      = -(b0 q k * (a q k / ardRate κ b0 S R q k)) - a0 q k * Real.log (ardRate κ b0 S R q k)
        + (a0 q k * digamma (a q k) + a0 q k * Real.log (b0 q k) - gammaln (a0 q k) + gammaln (a q k) + a q k
          - a q k * digamma (a q k)) := by
    intro q k
    rw [e, ← ha, gammaTerm_eq _ _ _ _ (hb q k).ne']
  simp only [h2, et, Matrix.cons_val_zero, Matrix.cons_val_one]
  have h3 : ∑ p, ∑ i, (digamma (a (π p) (κ i)) - Real.log (ardRate κ b0 S R (π p) (κ i)))
      = ∑ p, ∑ i, digamma (a (π p) (κ i)) + (r * rK : ℕ) * ∑ q, ∑ k, -Real.log (ardRate κ b0 S R q k) := by
    simp only [sub_eq_add_neg, Finset.sum_add_distrib]
    congr 1
    rw [sum_fiber π hr fun q => ∑ i, -Real.log (ardRate κ b0 S R q (κ i))]
    rw [Finset.sum_congr rfl fun q _ => sum_fiber κ hrK fun k => -Real.log (ardRate κ b0 S R q k), ← Finset.mul_sum]
    push_cast
    ring
  rw [h3]
  unfold ardBoundUpdate gaussianEntropy gaussianLogpdf gammaLogpdf
  simp only [Finset.sum_add_distrib, Finset.sum_sub_distrib, Finset.sum_neg_distrib, mul_neg]
  ring

/-- with the shape which an update of `alpha` gives -/
theorem ard_update_shape (π : P → A) (κ : ι → K) {r rK : ℕ} (hr : ∀ a, (Finset.univ.filter fun p => π p = a).card = r)
    (hrK : ∀ k, (Finset.univ.filter fun i => κ i = k).card = rK) (a a0 b0 : A → K → ℝ)
    (ha : ∀ q k, a q k = a0 q k + 0.5 * (r * rK : ℕ)) (hb0 : ∀ q k, 0 < b0 q k) (m : P → ι → Fin 2 → ℝ)
    (hm : ∀ p i, m p i 0 ^ 2 ≤ m p i 1) (t : A → K → Fin 2 → ℝ) (ht : ∀ a k, 0 < t a k 0) (s : P → ExpState (GIx ι))
    (hs : ∀ p, SecondMoment (s p).u) (ha0 : ∀ q k, 0 < a0 q k) : ∃ C, ∀ R : Matrix ι ι ℝ, R.det ≠ 0 →
      ∑ p, ardTerm (fun i => wrap0 (m p i.1) (gammaMoments
            (alphaPhi π κ a0 b0 m (fun p => (gaussianRotate R none none (s p)).u) (π p) (κ i.1))) i.2)
          (gaussianRotate R none none (s p))
        + ∑ q, ∑ k, gammaTerm (gammaPriorFixed (a0 q k)) (gammaFixed (b0 q k))
            (alphaPhi π κ a0 b0 m (fun p => (gaussianRotate R none none (s p)).u) q k)
        = ardBoundUpdate (Fintype.card P) r rK κ a a0 b0
            (ardSetup π (fun p => (s p).u) fun p i => wrap0 (m p i.1) (t (π p) (κ i.1)) i.2) R (slogdet R) + C := by
  exact ⟨_, fun R hR => ard_update_explicit π κ hr hrK a a0 b0 ha hb0 m hm t ht s hs ha0 R hR⟩

/-- the bound without the terms which do not depend on the rotation: the shape `a` only adds a constant -/
theorem ardBoundUpdate_eq (nP r rK : ℕ) (κ : ι → K) (a a0 b0 : A → K → ℝ) (S : ArdSums A ι) (R : Matrix ι ι ℝ) (logdet : ℝ)
    (hb : ∀ q k, ardRate κ b0 S R q k ≠ 0) :
    ardBoundUpdate nP r rK κ a a0 b0 S R logdet
      = nP * logdet - ∑ q, ∑ k, a q k - ∑ q, ∑ k, (a0 q k + 0.5 * (r * rK : ℕ)) * Real.log (ardRate κ b0 S R q k) := by
  have h1 : ∀ q, ∑ i, ardSquares S R q i * (a q (κ i) / ardRate κ b0 S R q (κ i))
      = ∑ k, (∑ i with κ i = k, ardSquares S R q i) * (a q k / ardRate κ b0 S R q k) := by
    intro q
    rw [← Finset.sum_fiberwise Finset.univ κ]
    refine Finset.sum_congr rfl fun k _ => ?_
    rw [Finset.sum_mul]
    exact Finset.sum_congr rfl fun i hi => by rw [(Finset.mem_filter.1 hi).2]
  have h2 : ∀ q k, (∑ i with κ i = k, ardSquares S R q i) * (a q k / ardRate κ b0 S R q k)
      = 2 * a q k - 2 * (b0 q k * (a q k / ardRate κ b0 S R q k)) := by
    intro q k
    have e : ∑ i with κ i = k, ardSquares S R q i = 2 * ardRate κ b0 S R q k - 2 * b0 q k := by
      unfold ardRate
      ring
    have := hb q k
    rw [e]
    field_simp
  unfold ardBoundUpdate gaussianEntropy gaussianLogpdf gammaLogpdf
  simp only [h1, h2, Finset.sum_sub_distrib, ← Finset.mul_sum, Finset.sum_neg_distrib, mul_neg, add_mul, Finset.sum_add_distrib]
  ring

/-- **C58** with `alpha`: for every invertible rotation, the terms of `X` and `alpha` in the lower bound after rotating `X`
and updating `alpha` are the bound which `RotateGaussianARD` computes plus a constant, whatever shape parameters `alpha`
has before. -/
theorem C58_ard_update (π : P → A) (κ : ι → K) {r rK : ℕ} (hr : ∀ a, (Finset.univ.filter fun p => π p = a).card = r)
    (hrK : ∀ k, (Finset.univ.filter fun i => κ i = k).card = rK) (a a0 b0 : A → K → ℝ)
    (ha0 : ∀ q k, 0 < a0 q k) (hb0 : ∀ q k, 0 < b0 q k) (m : P → ι → Fin 2 → ℝ)
    (hm : ∀ p i, m p i 0 ^ 2 ≤ m p i 1) (t : A → K → Fin 2 → ℝ) (ht : ∀ a k, 0 < t a k 0) (s : P → ExpState (GIx ι))
    (hs : ∀ p, SecondMoment (s p).u) : ∃ C, ∀ R : Matrix ι ι ℝ, R.det ≠ 0 →
      ∑ p, ardTerm (fun i => wrap0 (m p i.1) (gammaMoments
            (alphaPhi π κ a0 b0 m (fun p => (gaussianRotate R none none (s p)).u) (π p) (κ i.1))) i.2)
          (gaussianRotate R none none (s p))
        + ∑ q, ∑ k, gammaTerm (gammaPriorFixed (a0 q k)) (gammaFixed (b0 q k))
            (alphaPhi π κ a0 b0 m (fun p => (gaussianRotate R none none (s p)).u) q k)
        = ardBoundUpdate (Fintype.card P) r rK κ a a0 b0
            (ardSetup π (fun p => (s p).u) fun p i => wrap0 (m p i.1) (t (π p) (κ i.1)) i.2) R (slogdet R) + C := by
  let a' := fun q k => a0 q k + 0.5 * (r * rK : ℕ)
  obtain ⟨C, h⟩ := ard_update_shape π κ hr hrK a' a0 b0 (fun _ _ => rfl) hb0 m hm t ht s hs ha0
  refine ⟨C - ∑ q, ∑ k, a' q k + ∑ q, ∑ k, a q k, fun R hR => ?_⟩
  have hb : ∀ q k, ardRate κ b0 (ardSetup π (fun p => (s p).u) fun p i => wrap0 (m p i.1) (t (π p) (κ i.1)) i.2) R q k ≠ 0 :=
    fun q k => (ardRate_pos π κ b0 hb0 m hm t ht s hs R q k).ne'
  rw [h R hR, ardBoundUpdate_eq _ _ _ _ _ _ _ _ _ _ hb, ardBoundUpdate_eq _ _ _ _ _ _ _ _ _ _ hb]
  ring

end

/-! ### factor analysis -/

section
variable (P : FAParams)

theorem fa_contribution_w (s : (faNet P).State) (i : Fin P.M) :
    (faNet P).contribution FA.w s i = ardTerm (ι := Fin P.D) (faSlot P .w () s.u i) ⟨s.u FA.w i, s.phi FA.w i, s.g FA.w i⟩ := by
  refine (Net.contribution_eq (G := faNet P) FA.w s i).trans ?_
  change _ + -(1 / 1) * _ = _ - _
  rw [div_one, neg_one_mul, ← sub_eq_add_neg]
  rfl

theorem fa_contribution_x (s : (faNet P).State) (j : Fin P.N) :
    (faNet P).contribution FA.x s j = ardTerm (ι := Fin P.D) (faSlot P .x () s.u j) ⟨s.u FA.x j, s.phi FA.x j, s.g FA.x j⟩ := by
  refine (Net.contribution_eq (G := faNet P) FA.x s j).trans ?_
  change _ + -(1 / 1) * _ = _ - _
  rw [div_one, neg_one_mul, ← sub_eq_add_neg]
  rfl

theorem fa_contribution_alpha (s : (faNet P).State) (d : Fin P.D) (h1 : s.u FA.alpha d = gammaMoments (s.phi FA.alpha d))
    (h2 : s.g FA.alpha d = gammaCgf (s.phi FA.alpha d)) :
    (faNet P).contribution FA.alpha s d
      = gammaTerm (gammaPriorFixed (P.a0 d)) (gammaFixed (P.b0 d)) (s.phi FA.alpha d) := by
  refine (Net.contribution_eq (G := faNet P) FA.alpha s d).trans ?_
  change _ + -(1 / 1) * _ = _ - _
  rw [div_one, neg_one_mul, ← sub_eq_add_neg, h1, h2]
  rfl

/-- every row and every column has an observed value -/
def Spec.FAObserved : Prop := (∀ i, ∃ j, P.mask i j = true) ∧ (∀ j, ∃ i, P.mask i j = true) ∧ 0 < P.M

theorem fa_bound (hM : 0 < P.M) (hO : ∀ i, ∃ j, P.mask i j = true) (s : (faNet P).State) :
    (faNet P).bound s = ∑ d : Fin P.D, (faNet P).contribution FA.alpha s d + ∑ i : Fin P.M, (faNet P).contribution FA.w s i
      + (∑ j : Fin P.N, if faMask P .x j = true then (faNet P).contribution FA.x s j else 0) + (faNet P).contribution FA.tau s ()
      + ∑ p : Fin P.M × Fin P.N, if P.mask p.1 p.2 = true then (faNet P).contribution FA.y s p else 0 := by
  have hany : ∃ i j, P.mask i j = true := ⟨⟨0, hM⟩, hO _⟩
  refine (fa_sum (fun n => ∑ q : faPlate P n, if (faNet P).mask n q then (faNet P).contribution n s q else 0)).trans ?_
  congr 1
  congr 1
  · congr 1
    congr 1
    · exact Finset.sum_congr rfl fun d _ => if_pos (decide_eq_true hany)
    · exact Finset.sum_congr rfl fun i _ => if_pos (decide_eq_true (hO i))
  · exact (Fintype.sum_unique (ι := Unit) _).trans (if_pos (decide_eq_true hany))

/-- the factors after the rotation -/
theorem fa_rotate_x (R : Matrix (Fin P.D) (Fin P.D) ℝ) (s : (faNet P).State) (j : Fin P.N) :
    (⟨(faRotate P R s).u FA.x j, (faRotate P R s).phi FA.x j, (faRotate P R s).g FA.x j⟩ : ExpState (GIx (Fin P.D)))
      = gaussianRotate R none none ⟨s.u FA.x j, s.phi FA.x j, s.g FA.x j⟩ := rfl

theorem gaussianRotate_opposite {ι : Type*} [Fintype ι] [DecidableEq ι] {R : Matrix ι ι ℝ} (hR : R.det ≠ 0) (s : ExpState (GIx ι)) :
    gaussianRotate R⁻¹ᵀ (some Rᵀ) (some (-slogdet R)) s = gaussianRotate R⁻¹ᵀ none none s := by
  obtain ⟨e1, e2⟩ := goodArgs_eq (C46_opposite_args R hR).2
  unfold gaussianRotate
  simp only [e1, e2]
  rfl

theorem fa_rotate_w {R : Matrix (Fin P.D) (Fin P.D) ℝ} (hR : R.det ≠ 0) (s : (faNet P).State) (i : Fin P.M) :
    (⟨(faRotate P R s).u FA.w i, (faRotate P R s).phi FA.w i, (faRotate P R s).g FA.w i⟩ : ExpState (GIx (Fin P.D)))
      = gaussianRotate R⁻¹ᵀ none none ⟨s.u FA.w i, s.phi FA.w i, s.g FA.w i⟩ := by
  rw [← gaussianRotate_opposite hR]
  rfl

theorem sum_filter_id {K : Type*} [Fintype K] [DecidableEq K] {M : Type*} [AddCommMonoid M] (f : K → M) (d : K) :
    ∑ i with id i = d, f i = f d := by
  simp only [id]
  rw [Finset.filter_eq' Finset.univ d, if_pos (Finset.mem_univ d), Finset.sum_singleton]

/-- the new parameters of `alpha` -/
theorem fa_rotate_alpha (hO : ∀ i, ∃ j, P.mask i j = true) {R : Matrix (Fin P.D) (Fin P.D) ℝ} (hR : R.det ≠ 0) (s : (faNet P).State) (d : Fin P.D) :
    (faRotate P R s).phi FA.alpha d
      = alphaPhi (P := Fin P.M) (A := Unit) (ι := Fin P.D) (K := Fin P.D) (fun _ => ()) id (fun _ => P.a0) (fun _ => P.b0)
          (fun i d => fixed0 (P.muW i d))
          (fun i => (gaussianRotate R⁻¹ᵀ none none ⟨s.u FA.w i, s.phi FA.w i, s.g FA.w i⟩ : ExpState (GIx (Fin P.D))).u) () d := by
  have e := fa_new_alpha P (faRotateW P R⁻¹ᵀ Rᵀ (-slogdet R) (faRotateX P R R⁻¹ (slogdet R) s)) d
  refine (show (faRotate P R s).phi FA.alpha d = _ from e).trans ?_
  unfold alphaPhi
  congr 1
  · simp [gammaPhi, gammaPriorFixed, gammaFixed]
  · rw [Finset.filter_true_of_mem fun _ _ => rfl]
    refine Finset.sum_congr rfl fun i _ => ?_
    refine Eq.trans ?_ (sum_filter_id _ d).symm
    refine congrArg (fun m => wrap0MsgT m (fixed0 (P.muW i d))) ?_
    funext k
    exact (if_pos (decide_eq_true (hO i))).trans (congrArg (fun t : ExpState (GIx (Fin P.D)) => ardMsg t.u (d, k))
      (gaussianRotate_opposite hR ⟨s.u FA.w i, s.phi FA.w i, s.g FA.w i⟩))

theorem dotMoments_congr {ι : Type*} [Fintype ι] {w x w' x' : GIx ι → ℝ} (h0 : g0 w ⬝ᵥ g0 x = g0 w' ⬝ᵥ g0 x')
    (h1 : frob (g1 w) (g1 x) = frob (g1 w') (g1 x')) : dotMoments w x = dotMoments w' x' := by
  unfold dotMoments
  rw [show ∑ d, g0 w d * g0 x d = ∑ d, g0 w' d * g0 x' d from h0,
    show ∑ d, ∑ e, g1 w d e * g1 x d e = ∑ d, ∑ e, g1 w' d e * g1 x' d e from h1]

/-- rotating the factors leaves the messages to the observations as they are -/
theorem fa_rotate_slot (R : Matrix (Fin P.D) (Fin P.D) ℝ) (hR : R.det ≠ 0) (s : (faNet P).State) (p : Fin P.M × Fin P.N) :
    dotMoments (ι := Fin P.D) ((faRotate P R s).u FA.w p.1) ((faRotate P R s).u FA.x p.2)
      = dotMoments (ι := Fin P.D) (s.u FA.w p.1) (s.u FA.x p.2) := by
  have h := C46_opposite_rotations R hR ⟨s.u FA.x p.2, s.phi FA.x p.2, s.g FA.x p.2⟩ ⟨s.u FA.w p.1, s.phi FA.w p.1, s.g FA.w p.1⟩
  refine (dotMoments_comm _ _).trans (Eq.trans ?_ (dotMoments_comm (ι := Fin P.D) _ _))
  exact dotMoments_congr h.1 h.2

theorem fa_rotate_tau (R : Matrix (Fin P.D) (Fin P.D) ℝ) (s : (faNet P).State) :
    (faNet P).contribution FA.tau (faRotate P R s) () = (faNet P).contribution FA.tau s () := rfl

theorem fa_rotate_y (R : Matrix (Fin P.D) (Fin P.D) ℝ) (hR : R.det ≠ 0) (s : (faNet P).State) (p : Fin P.M × Fin P.N) :
    (faNet P).contribution FA.y (faRotate P R s) p = (faNet P).contribution FA.y s p := by
  have e : (faNet P).parents FA.y (faRotate P R s).u p = (faNet P).parents FA.y s.u p := by
    funext k
    exact congrArg (fun m => wrap0 m (s.u FA.tau ())) (fa_rotate_slot P R hR s p)
  unfold Net.contribution
  rw [e]
  rfl

theorem combine_terms {A W X T Y bw C2 : ℝ} (h2 : W + A = bw + C2) : A + W + X + T + Y = X + bw + (C2 + T + Y) := by
  linarith

/-- the terms of the elements of `X` which are used -/
noncomputable def Spec.faTermsX (s : (faNet P).State) (R : Matrix (Fin P.D) (Fin P.D) ℝ) : ℝ :=
  ∑ j : Fin P.N, if ∃ i, P.mask i j = true then
    ardTerm (ι := Fin P.D) (fun k => wrap0 (fixed0 (P.muX j k.1)) (gammaFixed (P.alphaX j k.1)) k.2)
      (gaussianRotate R none none ⟨s.u FA.x j, s.phi FA.x j, s.g FA.x j⟩) else 0

/-- After the rotation the lower bound is the bound of the second block plus the terms of `X`, up to a constant. -/
theorem fa_rotate_terms (data : Fin P.M → Fin P.N → ℝ) (hP : FAValid P) (hM : 0 < P.M) (hO : ∀ i, ∃ j, P.mask i j = true)
    (s : (faNet P).State) (hs : FAState P data s) :
    ∃ C, ∀ R : Matrix (Fin P.D) (Fin P.D) ℝ, R.det ≠ 0 → (faNet P).bound (faRotate P R s)
      = faTermsX P s R + ((faBlockW P s).bound R⁻¹ᵀ (-slogdet R) Rᵀ).1 + C := by
  obtain ⟨ha0, hb0, hax, -, -⟩ := hP
  have hal : ∀ d : Fin P.D, 0 < s.u FA.alpha d (0 : Fin 2) := by
    intro d
    obtain ⟨da, ea, -⟩ := hs.1 FA.alpha d rfl
    have ea' : s.u FA.alpha d = gammaMoments (s.phi FA.alpha d) := ea
    rw [ea']
    exact div_pos da.2 (neg_pos.2 da.1)
  obtain ⟨C2, h2⟩ := C58_ard_update (P := Fin P.M) (A := Unit) (ι := Fin P.D) (K := Fin P.D) (fun _ => ()) id
    (r := P.M) (rK := 1) (by simp) (fun k => by simp [Finset.filter_eq'])
    (fun _ d => s.phi FA.alpha d (1 : Fin 2)) (fun _ => P.a0) (fun _ => P.b0) (fun _ => ha0)
    (fun _ => hb0) (fun i d => fixed0 (P.muW i d)) (fun i d => le_of_eq (sq _))
    (fun _ d => s.u FA.alpha d) (fun _ => hal) (fun i => ⟨s.u FA.w i, s.phi FA.w i, s.g FA.w i⟩)
    (fun i => fa_second_w P s hs.1 i)
  refine ⟨C2 + (faNet P).contribution FA.tau s ()
    + ∑ p : Fin P.M × Fin P.N, if P.mask p.1 p.2 = true then (faNet P).contribution FA.y s p else 0, fun R hR => ?_⟩
  have hR' := (C46_opposite_args R hR).1
  have e2 := h2 R⁻¹ᵀ hR'
  have hy : (∑ p : Fin P.M × Fin P.N, if P.mask p.1 p.2 = true then (faNet P).contribution FA.y (faRotate P R s) p else 0)
      = ∑ p : Fin P.M × Fin P.N, if P.mask p.1 p.2 = true then (faNet P).contribution FA.y s p else 0 :=
    Finset.sum_congr rfl fun p _ => by rw [fa_rotate_y P R hR s p]
  rw [fa_bound P hM hO, fa_rotate_tau, hy]
  have hw : ∀ i : Fin P.M, (faNet P).contribution FA.w (faRotate P R s) i
      = ardTerm (ι := Fin P.D) (fun k => wrap0 (fixed0 (P.muW i k.1)) (gammaMoments ((faRotate P R s).phi FA.alpha k.1)) k.2)
        (gaussianRotate R⁻¹ᵀ none none ⟨s.u FA.w i, s.phi FA.w i, s.g FA.w i⟩) := by
    intro i
    rw [fa_contribution_w, fa_rotate_w P hR]
    rfl
  have hx : (∑ j : Fin P.N, if faMask P .x j = true then (faNet P).contribution FA.x (faRotate P R s) j else 0)
      = faTermsX P s R := by
    refine Finset.sum_congr rfl fun j _ => ?_
    have e : (faNet P).contribution FA.x (faRotate P R s) j
        = ardTerm (ι := Fin P.D) (fun k => wrap0 (fixed0 (P.muX j k.1)) (gammaFixed (P.alphaX j k.1)) k.2)
          (gaussianRotate R none none ⟨s.u FA.x j, s.phi FA.x j, s.g FA.x j⟩) := by
      rw [fa_contribution_x, fa_rotate_x]
      rfl
    have em : faMask P .x j = decide (∃ i, P.mask i j = true) := rfl
    rw [e, em]
    by_cases h : ∃ i, P.mask i j = true
    · rw [if_pos h, if_pos (decide_eq_true h)]
    · rw [if_neg h, if_neg (by rw [decide_eq_false h]; exact Bool.false_ne_true)]
  have hα : ∀ d : Fin P.D, (faNet P).contribution FA.alpha (faRotate P R s) d
      = gammaTerm (gammaPriorFixed (P.a0 d)) (gammaFixed (P.b0 d)) ((faRotate P R s).phi FA.alpha d) :=
    fun d => fa_contribution_alpha P _ d rfl rfl
  have el : slogdet R⁻¹ᵀ = -slogdet R := by
    unfold slogdet
    rw [det_transpose, det_nonsing_inv, Ring.inverse_eq_inv', Real.log_inv]
  rw [hx]
  refine combine_terms (Eq.trans ?_ (e2.trans ?_))
  · congr 1
    · refine Finset.sum_congr rfl fun i _ => (hw i).trans ?_
      refine congrArg (fun v => ardTerm (ι := Fin P.D) v _) ?_
      funext k
      rw [fa_rotate_alpha P hO hR]
      rfl
    · refine Eq.trans ?_ (Fintype.sum_unique (ι := Unit) _).symm
      refine Finset.sum_congr rfl fun d _ => (hα d).trans ?_
      rw [fa_rotate_alpha P hO hR]
  · rw [el, Fintype.card_fin]
    rfl

/-- After the rotation the lower bound is minus the cost plus a constant. -/
theorem fa_rotate_bound (data : Fin P.M → Fin P.N → ℝ) (hP : FAValid P) (hO : FAObserved P) (s : (faNet P).State)
    (hs : FAState P data s) :
    ∃ C, ∀ R : Matrix (Fin P.D) (Fin P.D) ℝ, R.det ≠ 0 → (faNet P).bound (faRotate P R s) = -faCost P s R + C := by
  obtain ⟨C2, h2⟩ := fa_rotate_terms P data hP hO.2.2 hO.1 s hs
  obtain ⟨ha0, hb0, hax, -, -⟩ := hP
  obtain ⟨C1, h1⟩ := C58_ard_fixed (P := Fin P.N) (A := Fin P.N) (ι := Fin P.D) (K := Fin P.D) id id
    (fun j d => fixed0 (P.muX j d)) (fun j d => gammaFixed (P.alphaX j d)) (fun j d => (hax j d).ne')
    (fun j => ⟨s.u FA.x j, s.phi FA.x j, s.g FA.x j⟩)
  refine ⟨C1 + C2, fun R hR => ?_⟩
  have ex : faTermsX P s R = ((faBlockX P s).bound R (slogdet R) R⁻¹).1 + C1 := by
    refine Eq.trans (Finset.sum_congr rfl fun j _ => if_pos (hO.2.1 j)) ((h1 R hR).trans ?_)
    have eα : (fun j d => faSlot P .x () s.u j ((d, 2) : Fin P.D × Fin 4)) = fun j d => gammaFixed (P.alphaX j d) 0 := by
      funext j d
      exact one_mul _
    rw [Fintype.card_fin, ← eα]
    rfl
  have ec : faCost P s R = -(((faBlockX P s).bound R (slogdet R) R⁻¹).1 + ((faBlockW P s).bound R⁻¹ᵀ (-slogdet R) Rᵀ).1) := rfl
  rw [h2 R hR, ex, ec]
  ring

theorem gaussianRotate_one {ι : Type*} [Fintype ι] [DecidableEq ι] (s : ExpState (GIx ι)) :
    gaussianRotate (1 : Matrix ι ι ℝ) (some 1) (some 0) s = s := by
  unfold gaussianRotate
  simp only [Option.getD_some, transpose_one, one_mulVec, Matrix.one_mul, Matrix.mul_one, sub_zero, mkG_eta]

theorem fa_rotateX_one (s : (faNet P).State) : faRotateX P 1 1⁻¹ (slogdet (1 : Matrix (Fin P.D) (Fin P.D) ℝ)) s = s := by
  have h := fun j : Fin P.N => gaussianRotate_one (ι := Fin P.D) ⟨s.u FA.x j, s.phi FA.x j, s.g FA.x j⟩
  have e : slogdet (1 : Matrix (Fin P.D) (Fin P.D) ℝ) = 0 := by simp [slogdet]
  unfold faRotateX
  simp only [inv_one, e]
  exact Net.State.ext ((congrArg (Function.update s.phi FA.x) (funext fun j => congrArg ExpState.phi (h j))).trans (Function.update_eq_self _ _))
    ((congrArg (Function.update s.u FA.x) (funext fun j => congrArg ExpState.u (h j))).trans (Function.update_eq_self _ _))
    ((congrArg (Function.update s.g FA.x) (funext fun j => congrArg ExpState.g (h j))).trans (Function.update_eq_self _ _)) rfl

theorem fa_rotateW_one (s : (faNet P).State) : faRotateW P (1⁻¹)ᵀ 1ᵀ (-slogdet (1 : Matrix (Fin P.D) (Fin P.D) ℝ)) s = s := by
  have h := fun i : Fin P.M => gaussianRotate_one (ι := Fin P.D) ⟨s.u FA.w i, s.phi FA.w i, s.g FA.w i⟩
  have e : slogdet (1 : Matrix (Fin P.D) (Fin P.D) ℝ) = 0 := by simp [slogdet]
  unfold faRotateW
  simp only [inv_one, transpose_one, e, neg_zero]
  exact Net.State.ext ((congrArg (Function.update s.phi FA.w) (funext fun j => congrArg ExpState.phi (h j))).trans (Function.update_eq_self _ _))
    ((congrArg (Function.update s.u FA.w) (funext fun j => congrArg ExpState.u (h j))).trans (Function.update_eq_self _ _))
    ((congrArg (Function.update s.g FA.w) (funext fun j => congrArg ExpState.g (h j))).trans (Function.update_eq_self _ _)) rfl

/-- **C58** `RotationOptimizer.rotate` in factor analysis: for every invertible matrix which the optimisation returns, the
lower bound changes by exactly as much as the cost function says, compared with the identity; hence the bound never
decreases if the cost did not increase.  The state after it is again one to which everything said about updates applies. -/
theorem C58_factor_model (data : Fin P.M → Fin P.N → ℝ) (hP : FAValid P) (hO : FAObserved P) (s : (faNet P).State)
    (hs : FAState P data s) (R : Matrix (Fin P.D) (Fin P.D) ℝ) (hR : R.det ≠ 0) :
    (faNet P).bound (faRotate P R s) - (faNet P).bound (faRotate P 1 s) = -(faCost P s R - faCost P s 1) ∧
    (faCost P s R ≤ faCost P s 1 → (faNet P).bound s ≤ (faNet P).bound (faRotate P R s)) ∧
    FAState P data (faRotate P R s) := by
  obtain ⟨C, h⟩ := fa_rotate_bound P data hP hO s hs
  have h1 : (1 : Matrix (Fin P.D) (Fin P.D) ℝ).det ≠ 0 := by rw [det_one]; exact one_ne_zero
  have e : (faNet P).bound (faRotate P R s) - (faNet P).bound (faRotate P 1 s) = -(faCost P s R - faCost P s 1) := by
    rw [h R hR, h 1 h1]
    ring
  refine ⟨e, fun hc => ?_, ?_⟩
  · have e1 : faRotate P 1 s = (faNet P).update FA.alpha s := by
      refine congrArg ((faNet P).update FA.alpha) ?_
      rw [fa_rotateX_one]
      exact fa_rotateW_one P s
    have hv := fa_valid P data hP s hs FA.alpha
    have h2 : (faNet P).bound s ≤ (faNet P).bound ((faNet P).update FA.alpha s) :=
      C23_update (faNet P) (faDom P) (fa_sound P) FA.alpha s (fun _ => rfl) (hs.1 FA.alpha) hv
    rw [e1] at e
    linarith
  · refine fa_update P data hP (faRotateW P R⁻¹ᵀ Rᵀ (-slogdet R) (faRotateX P R R⁻¹ (slogdet R) s))
      ⟨fun n => ?_, fun i j hm => hs.2 i j hm⟩ FA.alpha
    change FA at n
    cases n
    · exact hs.1 FA.alpha
    · intro i _
      obtain ⟨d, eu, eg⟩ := hs.1 FA.w i rfl
      obtain ⟨⟨c1, c2⟩, c3⟩ := C46_gaussian_rotate R⁻¹ᵀ (C46_opposite_args R hR).1 (some Rᵀ) (some (-slogdet R))
        (C46_opposite_args R hR).2 ⟨s.u FA.w i, s.phi FA.w i, s.g FA.w i⟩ ⟨eu, eg⟩ d
      exact ⟨c3, c1, c2⟩
    · intro j _
      obtain ⟨d, eu, eg⟩ := hs.1 FA.x j rfl
      obtain ⟨⟨c1, c2⟩, c3⟩ := C46_gaussian_rotate R hR none none ⟨by simp, by simp⟩
        ⟨s.u FA.x j, s.phi FA.x j, s.g FA.x j⟩ ⟨eu, eg⟩ d
      exact ⟨c3, c1, c2⟩
    · exact hs.1 FA.tau
    · exact hs.1 FA.y

theorem exFA_observed : FAObserved exFA :=
  ⟨fun i => ⟨(1 : Fin 2), by change Fin 3 at i; fin_cases i <;> rfl⟩, fun j => ⟨(1 : Fin 3), by change Fin 2 at j; fin_cases j <;> rfl⟩,
    by decide⟩

/-- one value missing, a shear -/
example : let s := faInit exFA (fun i j => i + j) (fun _ _ => 1) fun _ _ => 0
    let R : Matrix (Fin 2) (Fin 2) ℝ := !![1, 1; 0, 2]
    (faNet exFA).bound (faRotate exFA R s) - (faNet exFA).bound (faRotate exFA 1 s)
      = -(faCost exFA s R - faCost exFA s 1) :=
  (C58_factor_model exFA (fun i j => i + j) exFA_valid exFA_observed _ (faInit_state exFA _ _ _) _
    (by
      refine (det_fin_two_of (1 : ℝ) 1 0 2).trans_ne ?_
      norm_num)).1

end

/-! ### a column without observed values -/

section

theorem rotate_second_one (R : Matrix (Fin 1) (Fin 1) ℝ) (e : ExpState (GIx (Fin 1))) :
    g1 (gaussianRotate R none none e).u 0 0 = R 0 0 ^ 2 * g1 e.u 0 0 := by
  change (R * g1 e.u * Rᵀ) 0 0 = _
  simp [Matrix.mul_apply]
  ring

theorem ardTerm_one (e : ExpState (GIx (Fin 1))) (R : Matrix (Fin 1) (Fin 1) ℝ) (hR : R 0 0 ≠ 0) :
    ardTerm (fun k : Fin 1 × Fin 4 => wrap0 (fixed0 0) (gammaFixed 1) k.2) (gaussianRotate R none none e)
      = -(1 / 2) * (R 0 0 ^ 2 * g1 e.u 0 0) + Real.log (R 0 0) - (e.g + e.phi ⬝ᵥ e.u) := by
  unfold ardTerm
  rw [entropy_rotate (by rw [det_fin_one]; exact hR), ard_quadratic _ fun i => by
    change (1 : ℝ) * 1 ≠ 0
    norm_num]
  rw [Fin.sum_univ_one, rotate_second_one]
  have e0 : wrap0 (fixed0 0) (gammaFixed 1) 0 = 0 := by simp [wrap0, fixed0]
  have e1 : wrap0 (fixed0 0) (gammaFixed 1) 1 = 0 := by simp [wrap0, fixed0]
  have e2 : wrap0 (fixed0 0) (gammaFixed 1) 2 = 1 := by simp [wrap0, gammaFixed]
  have e3 : wrap0 (fixed0 0) (gammaFixed 1) 3 = 0 := by simp [wrap0, gammaFixed]
  simp only [e0, e1, e2, e3, slogdet, det_fin_one]
  ring

theorem ardSquares_one {Q A : Type*} [Fintype Q] [Fintype A] [DecidableEq A] (π : Q → A) (u : Q → GIx (Fin 1) → ℝ)
    (t : Q → Fin 1 → Fin 2 → ℝ) (R : Matrix (Fin 1) (Fin 1) ℝ) (a : A) (i : Fin 1) :
    ardSquares (ardSetup π u fun p i => wrap0 (fixed0 0) (t p i.1) i.2) R a i
      = R 0 0 ^ 2 * ∑ p with π p = a, g1 (u p) 0 0 := by
  rw [Subsingleton.elim i 0]
  have := ardSquares_eq π (fun p i => wrap0 (fixed0 0) (t p i.1) i.2) (fun p => ⟨u p, 0, 0⟩) R a 0
  refine this.trans ?_
  rw [Finset.mul_sum]
  refine Finset.sum_congr rfl fun p _ => ?_
  have e0 : wrap0 (fixed0 0) (t p 0) 0 = 0 := by simp [wrap0, fixed0]
  have e1 : wrap0 (fixed0 0) (t p 0) 1 = 0 := by simp [wrap0, fixed0]
  rw [rotate_second_one]
  simp only [e0, e1]
  ring

/-- one row and two columns, of which the second is not observed -/
noncomputable def exFA1 : FAParams where
  M := 1
  N := 2
  D := 1
  a0 := fun _ => 1 / 2
  b0 := fun _ => 1 / 2
  muW := fun _ _ => 0
  muX := fun _ _ => 0
  alphaX := fun _ _ => 1
  at' := 1
  bt := 1
  mask := fun _ j => decide (j = 0)

theorem exFA1_valid : FAValid exFA1 :=
  ⟨fun _ => one_half_pos, fun _ => one_half_pos, fun _ _ => one_pos, one_pos, one_pos⟩

noncomputable def exFA1State : (faNet exFA1).State :=
  (faNet exFA1).update FA.alpha (faInit exFA1 (fun _ _ => 0) (fun _ _ => 0) fun (j : Fin 2) _ => if j = 0 then 0 else 3)

theorem unit_second (x : Fin 1 → ℝ) :
    g1 (gaussianMoments (mkG x (-(1 / 2 : ℝ) • (1 : Matrix (Fin 1) (Fin 1) ℝ)))) 0 0 = 1 + x 0 ^ 2 := by
  have e : (-2 : ℝ) • (-(1 / 2 : ℝ) • (1 : Matrix (Fin 1) (Fin 1) ℝ)) = 1 := by
    rw [smul_smul]; norm_num
  unfold gaussianMoments
  simp only [mkG_g0, mkG_g1, e, inv_one, one_mulVec, Matrix.add_apply, one_apply_eq, vecMulVec_apply]
  ring

theorem exFA1_termsX : ∃ C, ∀ R : Matrix (Fin 1) (Fin 1) ℝ, R 0 0 ≠ 0 →
    faTermsX exFA1 exFA1State R = -(1 / 2) * R 0 0 ^ 2 + Real.log (R 0 0) + C := by
  let e : ExpState (GIx (Fin 1)) := ⟨exFA1State.u FA.x (0 : Fin 2), exFA1State.phi FA.x (0 : Fin 2), exFA1State.g FA.x (0 : Fin 2)⟩
  refine ⟨-(e.g + e.phi ⬝ᵥ e.u), fun R hR => ?_⟩
  have h := ardTerm_one e R hR
  have h1 : g1 e.u 0 0 = 1 := (unit_second _).trans (by simp)
  rw [h1] at h
  refine (Fin.sum_univ_two _).trans ?_
  rw [if_pos ⟨(0 : Fin 1), rfl⟩, if_neg (by
    rintro ⟨i, hi⟩
    have h2 : decide ((1 : Fin 2) = 0) = true := hi
    simp at h2)]
  refine (add_zero _).trans (h.trans ?_)
  ring

theorem boundFixed_one (u : Fin 2 → GIx (Fin 1) → ℝ) (R : Matrix (Fin 1) (Fin 1) ℝ) (l : ℝ) :
    ardBoundFixed 2 id (fun _ _ => wrap0 (fixed0 0) (gammaFixed 1) 2)
        (ardSetup (A := Fin 2) (ι := Fin 1) id u fun _ i => wrap0 (fixed0 0) (gammaFixed 1) i.2) R l
      = -(1 / 2) * R 0 0 ^ 2 * (g1 (u 0) 0 0 + g1 (u 1) 0 0) + 2 * l := by
  have e2 : wrap0 (fixed0 0) (gammaFixed 1) 2 = 1 := by simp [wrap0, gammaFixed]
  unfold ardBoundFixed gaussianEntropy gaussianLogpdf
  simp only [ardSquares_one id u (fun _ _ => gammaFixed 1), sum_filter_id (fun p => g1 (u p) 0 0), Fin.sum_univ_two,
    Fin.sum_univ_one, e2]
  push_cast
  ring

theorem boundUpdate_one (u : Fin 1 → GIx (Fin 1) → ℝ) (hu : g1 (u 0) 0 0 = 1) (t : Fin 1 → Fin 2 → ℝ) (a : Fin 1 → ℝ)
    (R : Matrix (Fin 1) (Fin 1) ℝ) (l : ℝ) :
    ardBoundUpdate 1 1 1 id (fun _ => a) (fun _ _ => 1 / 2) (fun _ _ => 1 / 2)
        (ardSetup (A := Unit) (ι := Fin 1) (fun _ => ()) u fun _ i => wrap0 (fixed0 0) (t i.1) i.2) R l
      = l - Real.log (1 / 2 + 1 / 2 * R 0 0 ^ 2) - a 0 := by
  have hr : ∀ q k, ardRate id (fun _ _ => 1 / 2)
      (ardSetup (A := Unit) (ι := Fin 1) (fun _ => ()) u fun _ i => wrap0 (fixed0 0) (t i.1) i.2) R q k
      = 1 / 2 + 1 / 2 * R 0 0 ^ 2 := by
    intro q k
    unfold ardRate
    rw [sum_filter_id, ardSquares_one (fun _ => ()) u fun _ => t]
    rw [Finset.filter_true_of_mem fun _ _ => rfl, Fin.sum_univ_one, hu]
    ring
  rw [ardBoundUpdate_eq _ _ _ _ _ _ _ _ _ _ fun q k => by rw [hr]; positivity]
  simp only [hr, Finset.univ_unique, Finset.sum_singleton, Fin.default_eq_zero]
  push_cast
  ring

theorem exFA1_blockX (R : Matrix (Fin 1) (Fin 1) ℝ) (l : ℝ) (inv) :
    ((faBlockX exFA1 exFA1State).bound R l inv).1 = -(11 / 2) * R 0 0 ^ 2 + 2 * l := by
  refine (boundFixed_one (exFA1State.u FA.x) R l).trans ?_
  have h0 : g1 (ι := Fin 1) (exFA1State.u FA.x (0 : Fin 2)) 0 0 = 1 := (unit_second _).trans (by simp)
  have h1 : g1 (ι := Fin 1) (exFA1State.u FA.x (1 : Fin 2)) 0 0 = 10 := (unit_second _).trans (by norm_num)
  rw [h0, h1]
  ring

theorem exFA1_blockW : ∃ C, ∀ (R : Matrix (Fin 1) (Fin 1) ℝ) (l : ℝ) (inv),
    ((faBlockW exFA1 exFA1State).bound R l inv).1 = l - Real.log (1 / 2 + 1 / 2 * R 0 0 ^ 2) + C := by
  refine ⟨-exFA1State.phi FA.alpha (0 : Fin 1) (1 : Fin 2), fun R l inv => ?_⟩
  have hu : g1 (ι := Fin 1) (exFA1State.u FA.w (0 : Fin 1)) 0 0 = 1 := (unit_second _).trans (by simp)
  have h := boundUpdate_one (exFA1State.u FA.w) hu (exFA1State.u FA.alpha)
    (fun d : Fin 1 => exFA1State.phi FA.alpha d (1 : Fin 2)) R l
  exact Eq.trans h (sub_eq_add_neg _ _)

/-- **C58** is violated when a column (or a row) has no observed value: the cost counts elements of the factors which the
lower bound does not, and the rotation which halves `X` decreases the cost and decreases the lower bound. -/
theorem C58_unobserved_refuted :
    let R : Matrix (Fin 1) (Fin 1) ℝ := Matrix.of fun _ _ => 1 / 2
    FAState exFA1 (fun _ _ => 0) exFA1State ∧
    faCost exFA1 exFA1State R < faCost exFA1 exFA1State 1 ∧
    (faNet exFA1).bound (faRotate exFA1 R exFA1State) < (faNet exFA1).bound exFA1State := by
  intro R
  have hR0 : R 0 0 = 1 / 2 := rfl
  have hR : R.det ≠ 0 := by rw [det_fin_one, hR0]; norm_num
  have h1 : (1 : Matrix (Fin 1) (Fin 1) ℝ).det ≠ 0 := by rw [det_one]; exact one_ne_zero
  have hinv : R⁻¹ᵀ 0 0 = 2 := by
    rw [transpose_apply, inv_subsingleton, diagonal_apply_eq, hR0, Ring.inverse_eq_inv']
    norm_num
  have hinv1 : (1 : Matrix (Fin 1) (Fin 1) ℝ)⁻¹ᵀ 0 0 = 1 := by rw [inv_one, transpose_one, one_apply_eq]
  have hl : slogdet R = -Real.log 2 := by
    unfold slogdet
    rw [det_fin_one, hR0, one_div, Real.log_inv]
  have hl1 : slogdet (1 : Matrix (Fin 1) (Fin 1) ℝ) = 0 := by simp [slogdet]
  have hs : FAState exFA1 (fun _ _ => 0) exFA1State :=
    fa_update exFA1 _ exFA1_valid _ (faInit_state exFA1 _ _ _) FA.alpha
  obtain ⟨C, hC⟩ := fa_rotate_terms exFA1 (fun _ _ => 0) exFA1_valid one_pos (fun _ => ⟨(0 : Fin 2), rfl⟩) exFA1State hs
  obtain ⟨C1, hX⟩ := exFA1_termsX
  obtain ⟨C2, hW⟩ := exFA1_blockW
  have l2 : Real.log (1 / 2 + 1 / 2 * 2 ^ 2) = Real.log (5 / 2) := by norm_num
  have l1 : Real.log (1 / 2 + 1 / 2 * 1 ^ 2) = 0 := by norm_num
  have b1 : Real.log 2 ≤ 1 := by have := Real.log_le_sub_one_of_pos (x := 2) (by norm_num); linarith
  have b2 : Real.log (5 / 2) ≤ 3 / 2 := by have := Real.log_le_sub_one_of_pos (x := 5 / 2) (by norm_num); linarith
  have b3 : 3 / 5 ≤ Real.log (5 / 2) := by have := Real.one_sub_inv_le_log_of_pos (x := 5 / 2) (by norm_num); norm_num at this; linarith
  refine ⟨hs, ?_, ?_⟩
  · have ec : ∀ R : Matrix (Fin 1) (Fin 1) ℝ, faCost exFA1 exFA1State R
        = -((-(11 / 2) * R 0 0 ^ 2 + 2 * slogdet R) + (-slogdet R - Real.log (1 / 2 + 1 / 2 * R⁻¹ᵀ 0 0 ^ 2) + C2)) :=
      fun R => congrArg Neg.neg (congrArg₂ (· + ·) (exFA1_blockX R (slogdet R) R⁻¹) (hW R⁻¹ᵀ (-slogdet R) Rᵀ))
    refine lt_of_eq_of_lt (ec R) (lt_of_lt_of_eq ?_ (ec 1).symm)
    rw [hinv, hinv1, hl, hl1, l1, l2, hR0, one_apply_eq]
    norm_num
    linarith
  · have e1 : faRotate exFA1 1 exFA1State = exFA1State := by
      refine Eq.trans ?_ (C23_twice (faNet exFA1) (faDom exFA1) (fa_sound exFA1) FA.alpha _)
      refine congrArg ((faNet exFA1).update FA.alpha) ?_
      rw [fa_rotateX_one]
      exact fa_rotateW_one exFA1 _
    have eb : ∀ R : Matrix (Fin 1) (Fin 1) ℝ, R.det ≠ 0 → R 0 0 ≠ 0 → (faNet exFA1).bound (faRotate exFA1 R exFA1State)
        = (-(1 / 2) * R 0 0 ^ 2 + Real.log (R 0 0) + C1) + (-slogdet R - Real.log (1 / 2 + 1 / 2 * R⁻¹ᵀ 0 0 ^ 2) + C2) + C :=
      fun R hR h0 => (hC R hR).trans (congrArg (· + C) (congrArg₂ (· + ·) (hX R h0) (hW R⁻¹ᵀ (-slogdet R) Rᵀ)))
    have e3 := eb 1 h1 (by rw [one_apply_eq]; exact one_ne_zero)
    refine lt_of_eq_of_lt (eb R hR (by rw [hR0]; norm_num)) (lt_of_lt_of_eq ?_ (e3.symm.trans (congrArg (faNet exFA1).bound e1)))
    rw [hinv, hinv1, hl, hl1, l1, l2, hR0, one_apply_eq, one_div, Real.log_inv, Real.log_one]
    norm_num
    linarith

end

end Verif
