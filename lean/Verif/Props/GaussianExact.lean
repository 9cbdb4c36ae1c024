import Verif.Props.Sampling
import Verif.Props.GaussianChainMoments
import Mathlib.MeasureTheory.Integral.Pi
import Mathlib.Probability.Distributions.Gaussian.Real

/-!
# C22: the exact normaliser and the exact expectations of the Gaussian distribution

The density that `pdf` of a Gaussian node computes has integral one, mean `u[0]` and second moment `u[1]`.
-/

namespace Verif
open Spec MeasureTheory Matrix ProbabilityTheory

/-- the standard normal density of one number -/
noncomputable def phi1 (x : ℝ) : ℝ := (Real.sqrt (2 * Real.pi))⁻¹ * Real.exp (-(x ^ 2) / 2)

theorem phi1_eq (x : ℝ) : phi1 x = gaussianPDFReal 0 1 x := by
  simp [phi1, gaussianPDFReal]

theorem integrable_phi1 (k : ℕ) (hk : k ≤ 2) : Integrable fun x : ℝ => x ^ k * phi1 x := by
  have hb : (0 : ℝ) < 1 / 2 := by norm_num
  have h : Integrable fun x : ℝ => x ^ k * Real.exp (-(1 / 2) * x ^ 2) := by
    interval_cases k
    · simpa using integrable_exp_neg_mul_sq hb
    · simpa using integrable_mul_exp_neg_mul_sq hb
    · have := integrable_rpow_mul_exp_neg_mul_sq hb (s := 2) (by norm_num)
      simpa [Real.rpow_two] using this
  have e : (fun x : ℝ => x ^ k * phi1 x) = fun x => (Real.sqrt (2 * Real.pi))⁻¹ * (x ^ k * Real.exp (-(1 / 2) * x ^ 2)) := by
    funext x
    unfold phi1
    rw [show -(x ^ 2) / 2 = -(1 / 2) * x ^ 2 by ring]
    ring
  rw [e]
  exact h.const_mul _

theorem integral_phi1_zero : ∫ x : ℝ, x ^ 0 * phi1 x = 1 := by
  simp only [pow_zero, one_mul, phi1_eq]
  exact integral_gaussianPDFReal_eq_one 0 one_ne_zero

theorem integral_phi1_one : ∫ x : ℝ, x ^ 1 * phi1 x = 0 := by
  have := integral_id_gaussianReal (μ := 0) (v := 1)
  rw [integral_gaussianReal_eq_integral_smul one_ne_zero] at this
  rw [← this]
  exact integral_congr_ae (Filter.Eventually.of_forall fun x => by simp [phi1_eq, mul_comm])

theorem integral_phi1_two : ∫ x : ℝ, x ^ 2 * phi1 x = 1 := by
  have := variance_fun_id_gaussianReal (μ := 0) (v := 1)
  rw [variance_eq_integral measurable_id'.aemeasurable, integral_id_gaussianReal,
    integral_gaussianReal_eq_integral_smul one_ne_zero] at this
  rw [← NNReal.coe_one, ← this]
  exact integral_congr_ae (Filter.Eventually.of_forall fun x => by simp [phi1_eq, mul_comm])

section
variable {ι : Type*} [Fintype ι] [DecidableEq ι]

theorem standard_moment (k : ι → ℕ) (hk : ∀ i, k i ≤ 2) :
    Integrable (fun z : ι → ℝ => (∏ i, z i ^ k i) * standardNormalPdf z) ∧
    ∫ z : ι → ℝ, (∏ i, z i ^ k i) * standardNormalPdf z = ∏ i, ∫ x : ℝ, x ^ k i * phi1 x := by
  have e : (fun z : ι → ℝ => (∏ i, z i ^ k i) * standardNormalPdf z) = fun z => ∏ i, z i ^ k i * phi1 (z i) := by
    funext z
    rw [standardNormalPdf, ← Finset.prod_mul_distrib]
    rfl
  rw [e]
  exact ⟨Integrable.fintype_prod fun i => integrable_phi1 (k i) (hk i),
    integral_fintype_prod_volume_eq_prod fun i (x : ℝ) => x ^ k i * phi1 x⟩

theorem standard_zero : Integrable (fun z : ι → ℝ => standardNormalPdf z) ∧
    ∫ z : ι → ℝ, standardNormalPdf z = 1 := by
  have := standard_moment (ι := ι) (fun _ => 0) (by norm_num)
  simp only [pow_zero, Finset.prod_const_one, one_mul] at this
  refine ⟨this.1, this.2.trans ?_⟩
  have h := integral_phi1_zero
  simp only [pow_zero, one_mul] at h
  simp [h]

theorem prod_pow_single (z : ι → ℝ) (i : ι) : ∏ j, z j ^ (Pi.single i 1 : ι → ℕ) j = z i := by
  rw [Finset.prod_eq_single i]
  · simp
  · intro j _ h
    simp [Pi.single_eq_of_ne h]
  · simp

theorem standard_one (i : ι) : Integrable (fun z : ι → ℝ => z i * standardNormalPdf z) ∧
    ∫ z : ι → ℝ, z i * standardNormalPdf z = 0 := by
  have := standard_moment (ι := ι) (Pi.single i 1) (fun j => by
    by_cases h : j = i
    · subst h; simp
    · simp [Pi.single_eq_of_ne h])
  simp only [prod_pow_single] at this
  refine ⟨this.1, this.2.trans ?_⟩
  refine Finset.prod_eq_zero (Finset.mem_univ i) ?_
  rw [Pi.single_eq_same]
  exact integral_phi1_one

theorem standard_two (i j : ι) : Integrable (fun z : ι → ℝ => z i * z j * standardNormalPdf z) ∧
    ∫ z : ι → ℝ, z i * z j * standardNormalPdf z = if i = j then 1 else 0 := by
  have hp : ∀ z : ι → ℝ, ∏ k, z k ^ ((Pi.single i 1 : ι → ℕ) k + (Pi.single j 1 : ι → ℕ) k) = z i * z j := by
    intro z
    simp only [pow_add]
    rw [Finset.prod_mul_distrib, prod_pow_single, prod_pow_single]
  have := standard_moment (ι := ι) (fun k => (Pi.single i 1 : ι → ℕ) k + (Pi.single j 1 : ι → ℕ) k) (fun k => by
    have a : ∀ l : ι, (Pi.single l 1 : ι → ℕ) k ≤ 1 := by
      intro l
      by_cases h : k = l
      · subst h; simp
      · simp [Pi.single_eq_of_ne h]
    have := a i
    have := a j
    show _ + _ ≤ 2
    omega)
  simp only [hp] at this
  refine ⟨this.1, this.2.trans ?_⟩
  have h0 := integral_phi1_zero
  have h1 := integral_phi1_one
  have h2 := integral_phi1_two
  split_ifs with hij
  · subst hij
    refine Finset.prod_eq_one fun k _ => ?_
    by_cases h : k = i
    · subst h
      rw [Pi.single_eq_same]
      exact h2
    · rw [Pi.single_eq_of_ne h]
      exact h0
  · refine Finset.prod_eq_zero (Finset.mem_univ i) ?_
    rw [Pi.single_eq_same, Pi.single_eq_of_ne hij]
    exact h1

/-- a positive definite matrix is `Uᵀ U` for an invertible `U` -/
theorem exists_root {L : Matrix ι ι ℝ} (h : L.PosDef) : ∃ U : Matrix ι ι ℝ, Uᵀ * U = L ∧ IsUnit U.det := by
  let e := Fintype.equivFin ι
  have hA : (L.submatrix e.symm e.symm).PosDef := h.submatrix e.symm.injective
  obtain ⟨U, hU⟩ := exists_isChol_iff.2 hA
  have hL : (U.submatrix e e)ᵀ * U.submatrix e e = L := by
    rw [Matrix.transpose_submatrix, Matrix.submatrix_mul_equiv, hU.eq]
    ext i j
    simp
  refine ⟨U.submatrix e e, hL, isUnit_iff_ne_zero.2 fun e => ?_⟩
  have := h.det_pos
  rw [← hL, Matrix.det_mul, e, mul_zero] at this
  exact lt_irrefl _ this

/-- expectations under the density of the node are expectations of `mu + U⁻¹ z` -/
theorem gaussian_integral (phi : GIx ι → ℝ) (h : ((-2 : ℝ) • g1 phi).PosDef) :
    ∃ U : Matrix ι ι ℝ, Uᵀ * U = (-2 : ℝ) • g1 phi ∧ ∀ f : (ι → ℝ) → ℝ,
      ∫ x, f x * Real.exp (logpdf (gaussianFixed x) phi (gaussianCgf phi) (gaussianF (Fintype.card ι)))
        = ∫ z, f (((-2 : ℝ) • g1 phi)⁻¹ *ᵥ g0 phi + U⁻¹ *ᵥ z) * standardNormalPdf z := by
  obtain ⟨U, hC, hunit⟩ := exists_root h
  refine ⟨U, hC, fun f => ?_⟩
  set mu := ((-2 : ℝ) • g1 phi)⁻¹ *ᵥ g0 phi with hmu
  let inv : (ι → ℝ) → ι → ℝ := fun x => U *ᵥ (x - mu)
  have hback : ∀ x, mu + U⁻¹ *ᵥ inv x = x := by
    intro x
    simp only [inv]
    rw [Matrix.mulVec_mulVec, Matrix.nonsing_inv_mul _ hunit, Matrix.one_mulVec, add_sub_cancel]
  have himg : inv '' Set.univ = Set.univ := by
    rw [Set.image_univ, Set.range_eq_univ]
    intro z
    refine ⟨mu + U⁻¹ *ᵥ z, ?_⟩
    simp only [inv, add_sub_cancel_left, Matrix.mulVec_mulVec, Matrix.mul_nonsing_inv _ hunit, Matrix.one_mulVec]
  let T : (ι → ℝ) →L[ℝ] (ι → ℝ) := LinearMap.toContinuousLinearMap (Matrix.toLin' U)
  have hT : ∀ v, T v = U *ᵥ v := fun v => by simp [T]
  have hderiv : ∀ x ∈ Set.univ, HasFDerivWithinAt inv T Set.univ x := by
    intro x _
    have : HasFDerivAt (fun x => T (x - mu)) T x := by
      have h1 : HasFDerivAt (fun x : ι → ℝ => x - mu) (ContinuousLinearMap.id ℝ (ι → ℝ)) x :=
        (hasFDerivAt_id x).sub_const mu
      exact T.hasFDerivAt.comp x h1
    simp only [hT] at this
    exact this.hasFDerivWithinAt
  have hinj : Set.InjOn inv Set.univ := by
    intro x _ y _ hxy
    rw [← hback x, ← hback y, hxy]
  have hTd : T.det = U.det := LinearMap.det_toLin' U
  have key := integral_image_eq_integral_abs_det_fderiv_smul volume MeasurableSet.univ hderiv hinj
    fun z => f (mu + U⁻¹ *ᵥ z) * standardNormalPdf z
  rw [himg, setIntegral_univ, setIntegral_univ] at key
  rw [key]
  refine integral_congr_ae (Filter.Eventually.of_forall fun x => ?_)
  simp only [hTd, smul_eq_mul, hback]
  rw [exp_logpdf_gaussian' phi hC h]
  simp only [inv, ← hmu]
  ring

/-- **C22** The density of a Gaussian node has integral one. -/
theorem C22_gaussian_normaliser (phi : GIx (ι) → ℝ) (h : ((-2 : ℝ) • g1 phi).PosDef) :
    ∫ x, Real.exp (logpdf (gaussianFixed x) phi (gaussianCgf phi) (gaussianF (Fintype.card ι))) = 1 := by
  obtain ⟨U, -, hI⟩ := gaussian_integral phi h
  have := hI fun _ => 1
  simp only [one_mul] at this
  rw [this]
  exact standard_zero.2

/-- **C22** The first moment of a Gaussian node is the expectation of the variable. -/
theorem C22_gaussian_mean (phi : GIx (ι) → ℝ) (h : ((-2 : ℝ) • g1 phi).PosDef) (i : ι) :
    ∫ x, x i * Real.exp (logpdf (gaussianFixed x) phi (gaussianCgf phi) (gaussianF (Fintype.card ι))) = gaussianMoments phi (.inl i) := by
  obtain ⟨U, hC, hI⟩ := gaussian_integral phi h
  rw [hI fun x => x i]
  set m := ((-2 : ℝ) • g1 phi)⁻¹ *ᵥ g0 phi with hm
  have e : (fun z : ι → ℝ => (m + U⁻¹ *ᵥ z) i * standardNormalPdf z)
      = fun z => m i * standardNormalPdf z + ∑ j, U⁻¹ i j * (z j * standardNormalPdf z) := by
    funext z
    simp only [Pi.add_apply, mulVec, dotProduct, add_mul, Finset.sum_mul, mul_assoc]
  rw [e, integral_add (standard_zero.1.const_mul _)
    (integrable_finsetSum _ fun j _ => (standard_one j).1.const_mul _),
    integral_finsetSum _ fun j _ => (standard_one j).1.const_mul _]
  simp only [integral_const_mul, standard_zero.2, (standard_one _).2, mul_one, mul_zero, Finset.sum_const_zero, add_zero]
  rfl

/-- **C22** The second moment of a Gaussian node is the expectation of the outer product. -/
theorem C22_gaussian_second (phi : GIx (ι) → ℝ) (h : ((-2 : ℝ) • g1 phi).PosDef) (i j : ι) :
    ∫ x, x i * x j * Real.exp (logpdf (gaussianFixed x) phi (gaussianCgf phi) (gaussianF (Fintype.card ι)))
      = gaussianMoments phi (.inr (i, j)) := by
  obtain ⟨U, hC, hI⟩ := gaussian_integral phi h
  rw [hI fun x => x i * x j]
  set m := ((-2 : ℝ) • g1 phi)⁻¹ *ᵥ g0 phi with hm
  have e : (fun z : ι → ℝ => (m + U⁻¹ *ᵥ z) i * (m + U⁻¹ *ᵥ z) j * standardNormalPdf z)
      = fun z => (m i * m j * standardNormalPdf z + ∑ k, (m i * U⁻¹ j k + m j * U⁻¹ i k) * (z k * standardNormalPdf z))
        + ∑ k, ∑ l, U⁻¹ i k * U⁻¹ j l * (z k * z l * standardNormalPdf z) := by
    funext z
    have e1 : ∑ k, (m i * U⁻¹ j k + m j * U⁻¹ i k) * (z k * standardNormalPdf z)
        = (m i * ∑ k, U⁻¹ j k * z k) * standardNormalPdf z + (m j * ∑ k, U⁻¹ i k * z k) * standardNormalPdf z := by
      rw [Finset.mul_sum, Finset.mul_sum, Finset.sum_mul, Finset.sum_mul, ← Finset.sum_add_distrib]
      exact Finset.sum_congr rfl fun k _ => by ring
    have e2 : ∑ k, ∑ l, U⁻¹ i k * U⁻¹ j l * (z k * z l * standardNormalPdf z)
        = (∑ k, U⁻¹ i k * z k) * (∑ l, U⁻¹ j l * z l) * standardNormalPdf z := by
      rw [Finset.sum_mul_sum, Finset.sum_mul]
      refine Finset.sum_congr rfl fun k _ => ?_
      rw [Finset.sum_mul]
      exact Finset.sum_congr rfl fun l _ => by ring
    rw [e1, e2]
    simp only [Pi.add_apply, mulVec, dotProduct]
    ring
  have i0 := (standard_zero (ι := ι)).1.const_mul (m i * m j)
  have i1 : Integrable fun z : ι → ℝ => ∑ k, (m i * U⁻¹ j k + m j * U⁻¹ i k) * (z k * standardNormalPdf z) :=
    integrable_finsetSum _ fun k _ => (standard_one k).1.const_mul _
  have i2 : ∀ k, Integrable fun z : ι → ℝ => ∑ l, U⁻¹ i k * U⁻¹ j l * (z k * z l * standardNormalPdf z) :=
    fun k => integrable_finsetSum _ fun l _ => (standard_two k l).1.const_mul _
  have i01 : Integrable fun z : ι → ℝ => m i * m j * standardNormalPdf z
      + ∑ k, (m i * U⁻¹ j k + m j * U⁻¹ i k) * (z k * standardNormalPdf z) := i0.add i1
  rw [e, integral_add i01 (integrable_finsetSum _ fun k _ => i2 k), integral_add i0 i1,
    integral_finsetSum _ fun k _ => (standard_one k).1.const_mul _, integral_finsetSum _ fun k _ => i2 k,
    Finset.sum_congr rfl fun k _ => integral_finsetSum _ fun l _ => (standard_two k l).1.const_mul _]
  simp only [integral_const_mul, standard_zero.2, (standard_one _).2, (standard_two _ _).2, mul_one, mul_zero,
    Finset.sum_const_zero, add_zero, mul_ite, Finset.sum_ite_eq, Finset.mem_univ, if_true]
  have hinv : ((-2 : ℝ) • g1 phi)⁻¹ = U⁻¹ * (U⁻¹)ᵀ := by
    rw [← hC, Matrix.mul_inv_rev, Matrix.transpose_nonsing_inv]
  have hr : gaussianMoments phi (.inr (i, j)) = ((-2 : ℝ) • g1 phi)⁻¹ i j + m i * m j := rfl
  rw [hr, hinv, Matrix.mul_apply]
  simp only [Matrix.transpose_apply]
  ring

/-- **C22** All moments of a Gaussian node are the exact expectations of the fixed moments. -/
theorem C22_gaussian_expectation (phi : GIx ι → ℝ) (h : ((-2 : ℝ) • g1 phi).PosDef) (k : GIx ι) :
    ∫ x, gaussianFixed x k * Real.exp (logpdf (gaussianFixed x) phi (gaussianCgf phi) (gaussianF (Fintype.card ι)))
      = gaussianMoments phi k := by
  rcases k with i | ⟨i, j⟩
  · exact C22_gaussian_mean phi h i
  · exact C22_gaussian_second phi h i j

end

/-! ### Gaussian Markov chains -/

section
variable {M D : ℕ}

/-- the states of the chain from one vector -/
def chainStates (x : Fin (M + 1) × Fin D → ℝ) : Fin (M + 1) → Fin D → ℝ := fun n i => x (n, i)

theorem gmcFixed_restrict (x : Fin (M + 1) × Fin D → ℝ) :
    gmcFixed (chainStates x) = gmcRestrict (gaussianFixed x) := by
  funext k
  rcases k with ⟨n, i⟩ | ⟨n, i, j⟩ | ⟨n, i, j⟩ <;> rfl

theorem gmc_logpdf_full (phi : GMCIx M D → ℝ) (h : ((-2 : ℝ) • g1 (gmcFull phi)).PosDef) (x : Fin (M + 1) × Fin D → ℝ) :
    logpdf (gmcFixed (chainStates x)) phi (gmcCgf phi) (gmcF M D)
      = logpdf (gaussianFixed x) (gmcFull phi) (gaussianCgf (gmcFull phi)) (gaussianF (Fintype.card (Fin (M + 1) × Fin D))) := by
  have hs : (g1 (gaussianFixed x))ᵀ = g1 (gaussianFixed x) := by
    show (Matrix.vecMulVec x x)ᵀ = Matrix.vecMulVec x x
    rw [Matrix.transpose_vecMulVec]
  rw [logpdf_eq, logpdf_eq, gmcFixed_restrict, dotProduct_comm phi, gmc_pairing _ hs, dotProduct_comm,
    (C22_gaussian_chain phi h).2, gmcF, gaussianF]
  simp only [Fintype.card_prod, Fintype.card_fin]
  push_cast
  ring

/-- **C22** The density of a Gaussian Markov chain has integral one over all sequences of states. -/
theorem C22_gaussian_chain_normaliser (phi : GMCIx M D → ℝ) (h : ((-2 : ℝ) • g1 (gmcFull phi)).PosDef) :
    ∫ x : Fin (M + 1) × Fin D → ℝ, Real.exp (logpdf (gmcFixed (chainStates x)) phi (gmcCgf phi) (gmcF M D)) = 1 := by
  simp only [gmc_logpdf_full phi h]
  exact C22_gaussian_normaliser _ h

/-- **C22** The moments of a Gaussian Markov chain, computed with the block-banded solver, are the exact expectations. -/
theorem C22_gaussian_chain_expectation (phi : GMCIx M D → ℝ) (h : ((-2 : ℝ) • g1 (gmcFull phi)).PosDef) (k : GMCIx M D) :
    ∫ x : Fin (M + 1) × Fin D → ℝ, gmcFixed (chainStates x) k
        * Real.exp (logpdf (gmcFixed (chainStates x)) phi (gmcCgf phi) (gmcF M D))
      = gmcMoments phi k := by
  simp only [gmc_logpdf_full phi h]
  rw [(C22_gaussian_chain phi h).1]
  rcases k with ⟨n, i⟩ | ⟨n, i, j⟩ | ⟨n, i, j⟩
  · exact C22_gaussian_mean (gmcFull phi) h (n, i)
  · exact C22_gaussian_second (gmcFull phi) h (n, i) (n, j)
  · exact C22_gaussian_second (gmcFull phi) h (n.castSucc, i) (n.succ, j)

end

/-! ### Gaussian-gamma variables -/

section
variable {ι : Type*} [Fintype ι] [DecidableEq ι]

/-- the parameters of the marginal distribution of the gamma number -/
noncomputable def ggMarginal (phi : GGIx ι → ℝ) : Fin 2 → ℝ := ![-ggB phi, gg3 phi]

theorem gg_conditional (phi : GGIx ι → ℝ) (h : ((-2 : ℝ) • gg1 phi).PosDef) (tau : ℝ) (ht : 0 < tau) :
    (-2 : ℝ) • g1 (gaussianGammaRandomGaussian phi tau) = tau • ((-2 : ℝ) • gg1 phi) ∧
    ((-2 : ℝ) • g1 (gaussianGammaRandomGaussian phi tau)).PosDef ∧
    ((-2 : ℝ) • g1 (gaussianGammaRandomGaussian phi tau))⁻¹ = tau⁻¹ • ((-2 : ℝ) • gg1 phi)⁻¹ ∧
    ((-2 : ℝ) • g1 (gaussianGammaRandomGaussian phi tau))⁻¹ *ᵥ g0 (gaussianGammaRandomGaussian phi tau) = ggMu phi := by
  have hL : (-2 : ℝ) • g1 (gaussianGammaRandomGaussian phi tau) = tau • ((-2 : ℝ) • gg1 phi) := by
    show (-2 : ℝ) • (tau • gg1 phi) = _
    rw [smul_comm]
  have hi : (tau • ((-2 : ℝ) • gg1 phi))⁻¹ = tau⁻¹ • ((-2 : ℝ) • gg1 phi)⁻¹ := by
    apply Matrix.inv_eq_right_inv
    rw [smul_mul_smul_comm, mul_inv_cancel₀ ht.ne', Matrix.mul_nonsing_inv _ (isUnit_iff_ne_zero.2 h.det_pos.ne'), one_smul]
  refine ⟨hL, ?_, ?_, ?_⟩
  · rw [hL]
    exact h.smul ht
  · rw [hL, hi]
  · rw [hL, hi]
    show (tau⁻¹ • ((-2 : ℝ) • gg1 phi)⁻¹) *ᵥ (tau • gg0 phi) = _
    rw [Matrix.smul_mulVec, Matrix.mulVec_smul, smul_smul, inv_mul_cancel₀ ht.ne', one_smul]
    rfl

/-- the density of a Gaussian-gamma node is a gamma density times the density of a Gaussian given the gamma number -/
theorem gg_factor (phi : GGIx ι → ℝ) (h : ((-2 : ℝ) • gg1 phi).PosDef) (x : ι → ℝ) (tau : ℝ) (ht : 0 < tau) :
    Real.exp (logpdf (ggFixed x tau) phi (ggCgf phi) (ggF x tau))
      = Real.exp (logpdf (gammaFixed tau) (ggMarginal phi) (gammaCgf (ggMarginal phi)) (gammaF tau))
        * Real.exp (logpdf (gaussianFixed x) (gaussianGammaRandomGaussian phi tau)
            (gaussianCgf (gaussianGammaRandomGaussian phi tau)) (gaussianF (Fintype.card ι))) := by
  rw [← Real.exp_add]
  congr 1
  obtain ⟨hL, -, -, hmu⟩ := gg_conditional phi h tau ht
  have hdet := h.det_pos
  have hd1 : gaussianGammaRandomGaussian phi tau ⬝ᵥ gaussianFixed x
      = tau * (gg0 phi ⬝ᵥ x) + tau * (x ⬝ᵥ (gg1 phi) *ᵥ x) := by
    rw [gaussianGammaRandomGaussian, mkG_dot, smul_dotProduct, Matrix.smul_mulVec, dotProduct_smul]
    rfl
  have hc : gaussianCgf (gaussianGammaRandomGaussian phi tau)
      = -0.5 * (tau * (ggMu phi ⬝ᵥ gg0 phi))
        + 0.5 * ((Fintype.card ι : ℝ) * Real.log tau + Real.log ((-2 : ℝ) • gg1 phi).det) := by
    unfold gaussianCgf
    simp only
    rw [hmu, hL, Matrix.det_smul, Real.log_mul (by positivity) hdet.ne', Real.log_pow]
    show -0.5 * (ggMu phi ⬝ᵥ (tau • gg0 phi)) + _ = _
    rw [dotProduct_smul, smul_eq_mul]
  have hd2 : phi ⬝ᵥ ggFixed x tau = tau * (gg0 phi ⬝ᵥ x) + tau * (x ⬝ᵥ (gg1 phi) *ᵥ x)
      + (gg2 phi * tau + gg3 phi * Real.log tau) := by
    have e : mkGG (gg0 phi) (gg1 phi) (gg2 phi) (gg3 phi) = phi := by
      funext k
      rcases k with (i | ⟨i, j⟩) | (_ | _) <;> rfl
    rw [← mkGG_dot, e]
  have hlog : logpdf (gammaFixed tau) (ggMarginal phi) (gammaCgf (ggMarginal phi)) (gammaF tau)
      = -ggB phi * tau + gg3 phi * Real.log tau + (gg3 phi * Real.log (ggB phi) - gammaln (gg3 phi)) - Real.log tau := by
    simp only [logpdf_eq, dotProduct, Fin.sum_univ_two, gammaFixed, gammaCgf, gammaF, ggMarginal,
      Matrix.cons_val_zero, Matrix.cons_val_one, neg_neg]
    ring
  rw [hlog, logpdf_eq, logpdf_eq, hd1, hc, hd2, ggCgf, ggF, gaussianF, ggB]
  ring

/-- **C22** The density of a Gaussian-gamma node has integral one. -/
theorem C22_gaussianGamma_normaliser (phi : GGIx ι → ℝ) (h : ((-2 : ℝ) • gg1 phi).PosDef) (hb : 0 < ggB phi)
    (h3 : 0 < gg3 phi) :
    ∫ tau in Set.Ioi (0 : ℝ), ∫ x, Real.exp (logpdf (ggFixed x tau) phi (ggCgf phi) (ggF x tau)) = 1 := by
  have hm0 : ggMarginal phi 0 < 0 := by show -ggB phi < 0; linarith
  rw [← C22_gamma_normaliser (ggMarginal phi) hm0 h3]
  refine setIntegral_congr_fun measurableSet_Ioi fun tau ht => ?_
  have ht' : 0 < tau := ht
  obtain ⟨-, hpd, -, -⟩ := gg_conditional phi h tau ht'
  simp only [gg_factor phi h _ tau ht']
  rw [integral_const_mul, C22_gaussian_normaliser _ hpd, mul_one]

/-- **C22** The moments of a Gaussian-gamma node are the exact expectations of the fixed moments. -/
theorem C22_gaussianGamma_expectation (phi : GGIx ι → ℝ) (h : ((-2 : ℝ) • gg1 phi).PosDef) (hb : 0 < ggB phi)
    (h3 : 0 < gg3 phi) (k : GGIx ι) :
    ∫ tau in Set.Ioi (0 : ℝ), ∫ x, ggFixed x tau k * Real.exp (logpdf (ggFixed x tau) phi (ggCgf phi) (ggF x tau))
      = ggMoments phi k := by
  have hm0 : ggMarginal phi 0 < 0 := by show -ggB phi < 0; linarith
  let p : ℝ → ℝ := fun tau => Real.exp (logpdf (gammaFixed tau) (ggMarginal phi) (gammaCgf (ggMarginal phi)) (gammaF tau))
  have n0 : ∫ tau in Set.Ioi (0 : ℝ), p tau = 1 := C22_gamma_normaliser (ggMarginal phi) hm0 h3
  have n1 : ∫ tau in Set.Ioi (0 : ℝ), tau * p tau = gg3 phi / ggB phi := by
    refine (C22_gamma_mean (ggMarginal phi) hm0 h3).trans ?_
    simp only [gammaMoments, ggMarginal, Matrix.cons_val_zero, Matrix.cons_val_one, neg_neg]
  have n2 : ∫ tau in Set.Ioi (0 : ℝ), Real.log tau * p tau = -Real.log (ggB phi) + digamma (gg3 phi) := by
    refine (C22_gamma_log_mean (ggMarginal phi) hm0 h3).trans ?_
    simp only [gammaMoments, ggMarginal, Matrix.cons_val_zero, Matrix.cons_val_one, neg_neg]
    ring
  have i0 : IntegrableOn p (Set.Ioi 0) := by
    by_contra hn
    rw [integral_undef hn] at n0
    exact zero_ne_one n0
  have i1 : IntegrableOn (fun tau => tau * p tau) (Set.Ioi 0) := by
    by_contra hn
    rw [integral_undef hn] at n1
    exact (div_pos h3 hb).ne n1
  have inner : ∀ tau ∈ Set.Ioi (0 : ℝ), ∀ c : (ι → ℝ) → ℝ,
      ∫ x, c x * Real.exp (logpdf (ggFixed x tau) phi (ggCgf phi) (ggF x tau))
        = p tau * ∫ x, c x * Real.exp (logpdf (gaussianFixed x) (gaussianGammaRandomGaussian phi tau)
            (gaussianCgf (gaussianGammaRandomGaussian phi tau)) (gaussianF (Fintype.card ι))) := by
    intro tau ht c
    simp only [gg_factor phi h _ tau ht]
    rw [← integral_const_mul]
    exact integral_congr_ae (Filter.Eventually.of_forall fun x => by ring)
  rcases k with (i | ⟨i, j⟩) | (_ | _)
  · have e : ∀ tau ∈ Set.Ioi (0 : ℝ),
        ∫ x, ggFixed x tau (.inl (.inl i)) * Real.exp (logpdf (ggFixed x tau) phi (ggCgf phi) (ggF x tau))
          = ggMu phi i * (tau * p tau) := by
      intro tau ht
      obtain ⟨-, hpd, -, hmu⟩ := gg_conditional phi h tau ht
      have hx := C22_gaussian_mean _ hpd i
      have hv : gaussianMoments (gaussianGammaRandomGaussian phi tau) (.inl i) = ggMu phi i := congrFun hmu i
      rw [hv] at hx
      rw [inner tau ht, ← hx, ← integral_const_mul, ← integral_mul_const]
      refine integral_congr_ae (Filter.Eventually.of_forall fun x => ?_)
      show _ * (tau * x i * _) = _
      ring
    rw [setIntegral_congr_fun measurableSet_Ioi e, integral_const_mul, n1]
    show _ = gg3 phi / ggB phi * ggMu phi i
    ring
  · have e : ∀ tau ∈ Set.Ioi (0 : ℝ),
        ∫ x, ggFixed x tau (.inl (.inr (i, j))) * Real.exp (logpdf (ggFixed x tau) phi (ggCgf phi) (ggF x tau))
          = ((-2 : ℝ) • gg1 phi)⁻¹ i j * p tau + ggMu phi i * ggMu phi j * (tau * p tau) := by
      intro tau ht
      have ht' : 0 < tau := ht
      obtain ⟨-, hpd, hinv, hmu⟩ := gg_conditional phi h tau ht
      have hx := C22_gaussian_second _ hpd i j
      have hv : gaussianMoments (gaussianGammaRandomGaussian phi tau) (.inr (i, j))
          = tau⁻¹ * ((-2 : ℝ) • gg1 phi)⁻¹ i j + ggMu phi i * ggMu phi j := by
        have : gaussianMoments (gaussianGammaRandomGaussian phi tau) (.inr (i, j))
          = ((-2 : ℝ) • g1 (gaussianGammaRandomGaussian phi tau))⁻¹ i j
            + (((-2 : ℝ) • g1 (gaussianGammaRandomGaussian phi tau))⁻¹ *ᵥ g0 (gaussianGammaRandomGaussian phi tau)) i
              * (((-2 : ℝ) • g1 (gaussianGammaRandomGaussian phi tau))⁻¹ *ᵥ g0 (gaussianGammaRandomGaussian phi tau)) j := rfl
        rw [this, hmu, hinv]
        rfl
      rw [hv] at hx
      have hs : ∫ x, ggFixed x tau (.inl (.inr (i, j))) * Real.exp (logpdf (gaussianFixed x)
            (gaussianGammaRandomGaussian phi tau) (gaussianCgf (gaussianGammaRandomGaussian phi tau))
            (gaussianF (Fintype.card ι))) = tau * (tau⁻¹ * ((-2 : ℝ) • gg1 phi)⁻¹ i j + ggMu phi i * ggMu phi j) := by
        rw [← hx, ← integral_const_mul]
        refine integral_congr_ae (Filter.Eventually.of_forall fun x => ?_)
        show tau * (x i * x j) * _ = _
        ring
      rw [inner tau ht, hs]
      field_simp
    rw [setIntegral_congr_fun measurableSet_Ioi e, integral_add (i0.const_mul _) (i1.const_mul _), integral_const_mul,
      integral_const_mul, n0, n1]
    show _ = ((-2 : ℝ) • gg1 phi)⁻¹ i j + gg3 phi / ggB phi * (ggMu phi i * ggMu phi j)
    ring
  · have e : ∀ tau ∈ Set.Ioi (0 : ℝ),
        ∫ x, ggFixed x tau (.inr (.inl ())) * Real.exp (logpdf (ggFixed x tau) phi (ggCgf phi) (ggF x tau)) = tau * p tau := by
      intro tau ht
      obtain ⟨-, hpd, -, -⟩ := gg_conditional phi h tau ht
      rw [inner tau ht]
      show p tau * ∫ x, tau * _ = _
      rw [integral_const_mul, C22_gaussian_normaliser _ hpd]
      ring
    rw [setIntegral_congr_fun measurableSet_Ioi e, n1]
    rfl
  · have e : ∀ tau ∈ Set.Ioi (0 : ℝ),
        ∫ x, ggFixed x tau (.inr (.inr ())) * Real.exp (logpdf (ggFixed x tau) phi (ggCgf phi) (ggF x tau))
          = Real.log tau * p tau := by
      intro tau ht
      obtain ⟨-, hpd, -, -⟩ := gg_conditional phi h tau ht
      rw [inner tau ht]
      show p tau * ∫ x, Real.log tau * _ = _
      rw [integral_const_mul, C22_gaussian_normaliser _ hpd]
      ring
    rw [setIntegral_congr_fun measurableSet_Ioi e, n2]
    rfl

end

example : ∫ x, Real.exp (logpdf (gaussianFixed x) (mkG ![1, 2] ((-0.5 : ℝ) • 1)) (gaussianCgf (mkG ![1, 2] ((-0.5 : ℝ) • 1)))
    (gaussianF (Fintype.card (Fin 2)))) = 1 := by
  refine C22_gaussian_normaliser (ι := Fin 2) _ ?_
  have : (-2 : ℝ) • g1 (mkG ![1, 2] ((-0.5 : ℝ) • 1) : GIx (Fin 2) → ℝ) = 1 := by
    show (-2 : ℝ) • ((-0.5 : ℝ) • (1 : Matrix (Fin 2) (Fin 2) ℝ)) = 1
    rw [smul_smul]
    norm_num
  rw [this]
  exact Matrix.PosDef.one

end Verif
