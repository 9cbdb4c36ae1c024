import Verif.Props.GammaExpectation
import Verif.Props.GaussianMoments
import Mathlib.Probability.Distributions.Beta
import Mathlib.Analysis.Convex.SpecificFunctions.Basic
import Mathlib.Analysis.Convex.Jensen
import Mathlib.Analysis.Matrix.Order
import Mathlib.Analysis.Matrix.PosDef

/-!
# Gibbs' inequality for the distributions

`g phi' ≤ g phi - u(phi)·(phi' - phi)` for the cumulant generating function `g` and the moments `u` that
`compute_moments_and_cgf` returns.  It is what makes a coordinate update of a lower bound a maximisation (C23).
-/

namespace Verif
open Spec MeasureTheory Set Filter Topology

/-- The tangent of `-g` at `phi` is below `-g` at `phi'`. -/
def Spec.Tangent {ι : Type*} [Fintype ι] (g : (ι → ℝ) → ℝ) (u : (ι → ℝ) → ι → ℝ) (phi phi' : ι → ℝ) : Prop :=
  g phi' ≤ g phi - u phi ⬝ᵥ (phi' - phi)

/-- Concavity on the segment and the gradient at its end give the tangent inequality. -/
theorem tangent_of_concave {ι : Type*} [Fintype ι] (g : (ι → ℝ) → ℝ) (u : (ι → ℝ) → ι → ℝ) (phi phi' : ι → ℝ)
    (hg : IsMinusGradient g phi (u phi))
    (hc : ∀ s : ℝ, 0 < s → s < 1 → s * g phi' + (1 - s) * g phi ≤ g (phi + s • (phi' - phi))) :
    Tangent g u phi phi' := by
  have h := hg (phi' - phi)
  rw [hasDerivAt_iff_tendsto_slope_zero] at h
  have h' := (tendsto_nhdsWithin_mono_left (show Ioi (0 : ℝ) ⊆ {0}ᶜ from fun x hx => ne_of_gt hx)) h
  have hev : ∀ᶠ t in 𝓝[>] (0 : ℝ), g phi' - g phi ≤ t⁻¹ • (g (phi + (0 + t) • (phi' - phi)) - g (phi + (0 : ℝ) • (phi' - phi))) := by
    have : Ioo (0 : ℝ) 1 ∈ 𝓝[>] (0 : ℝ) := Ioo_mem_nhdsGT zero_lt_one
    filter_upwards [this] with t ht
    have := hc t ht.1 ht.2
    rw [zero_add, zero_smul, add_zero, smul_eq_mul, inv_mul_eq_div, le_div_iff₀ ht.1]
    linarith
  have := ge_of_tendsto h' hev
  unfold Tangent
  linarith

/-- A normalised density gives concavity of `g` on the segment. -/
theorem concave_of_normalised {ι X : Type*} [Fintype ι] [MeasurableSpace X] (μ : Measure X) (T : X → ι → ℝ) (f : X → ℝ)
    (g : (ι → ℝ) → ℝ) (phi phi' : ι → ℝ) (s : ℝ) (hs0 : 0 < s) (hs1 : s < 1)
    (h0 : ∫ x, Real.exp (logpdf (T x) phi (g phi) (f x)) ∂μ = 1)
    (h1 : ∫ x, Real.exp (logpdf (T x) phi' (g phi') (f x)) ∂μ = 1)
    (hm : ∫ x, Real.exp (logpdf (T x) (phi + s • (phi' - phi)) (g (phi + s • (phi' - phi))) (f x)) ∂μ = 1) :
    s * g phi' + (1 - s) * g phi ≤ g (phi + s • (phi' - phi)) := by
  by_contra hcon
  push Not at hcon
  have i0 := integrable_of_integral_eq_one h0
  have i1 := integrable_of_integral_eq_one h1
  have im := integrable_of_integral_eq_one hm
  set c := s * g phi' + (1 - s) * g phi - g (phi + s • (phi' - phi)) with hcdef
  have hle : ∀ x, Real.exp c * Real.exp (logpdf (T x) (phi + s • (phi' - phi)) (g (phi + s • (phi' - phi))) (f x))
      ≤ s * Real.exp (logpdf (T x) phi' (g phi') (f x)) + (1 - s) * Real.exp (logpdf (T x) phi (g phi) (f x)) := by
    intro x
    have hj := convexOn_exp.2 (mem_univ (logpdf (T x) phi' (g phi') (f x))) (mem_univ (logpdf (T x) phi (g phi) (f x)))
      hs0.le (by linarith : 0 ≤ 1 - s) (by ring)
    simp only [smul_eq_mul] at hj
    rw [← Real.exp_add]
    refine le_trans (le_of_eq ?_) hj
    congr 1
    simp only [logpdf_eq, hcdef, add_dotProduct, smul_dotProduct, sub_dotProduct, smul_eq_mul]
    ring
  have hI := integral_mono (im.const_mul (Real.exp c)) ((i1.const_mul s).add (i0.const_mul (1 - s))) hle
  simp only [Pi.add_apply] at hI
  rw [integral_add (i1.const_mul s) (i0.const_mul (1 - s)), integral_const_mul, integral_const_mul, integral_const_mul,
    h0, h1, hm] at hI
  have : 1 < Real.exp c := Real.one_lt_exp_iff.2 (by rw [hcdef]; linarith)
  linarith

/-! ### gamma -/

theorem tangent_gamma (phi phi' : Fin 2 → ℝ) (h0 : phi 0 < 0) (h1 : 0 < phi 1) (h0' : phi' 0 < 0) (h1' : 0 < phi' 1) :
    Tangent gammaCgf gammaMoments phi phi' := by
  refine tangent_of_concave _ _ _ _ (C22_gamma_gradient phi h0 h1) fun s hs0 hs1 => ?_
  refine concave_of_normalised (volume.restrict (Ioi (0 : ℝ))) gammaFixed gammaF _ _ _ s hs0 hs1
    (C22_gamma_normaliser phi h0 h1) (C22_gamma_normaliser phi' h0' h1') (C22_gamma_normaliser _ ?_ ?_)
  · simp only [Pi.add_apply, Pi.smul_apply, Pi.sub_apply, smul_eq_mul]
    nlinarith
  · simp only [Pi.add_apply, Pi.smul_apply, Pi.sub_apply, smul_eq_mul]
    nlinarith

/-! ### Poisson, multinomial and binomial -/

theorem tangent_poisson (phi phi' : Fin 1 → ℝ) : Tangent poissonCgf poissonMoments phi phi' := by
  unfold Tangent
  simp only [poissonCgf, poissonMoments, dotProduct, Fin.sum_univ_one, Matrix.cons_val_zero, Pi.sub_apply]
  have h := Real.add_one_le_exp (phi' 0 - phi 0)
  have e : Real.exp (phi' 0) = Real.exp (phi 0) * Real.exp (phi' 0 - phi 0) := by rw [← Real.exp_add]; congr 1; ring
  rw [e]
  nlinarith [Real.exp_pos (phi 0)]

theorem tangent_multinomial {ι : Type*} [Fintype ι] [Nonempty ι] (N : ℕ) (phi phi' : ι → ℝ) :
    Tangent (multinomialCgf N) (multinomialMoments N) phi phi' := by
  have hs := sum_exp_pos phi
  have hs' := sum_exp_pos phi'
  have hj := convexOn_exp.map_sum_le (t := Finset.univ) (w := fun i => Real.exp (phi i) / ∑ j, Real.exp (phi j))
    (p := fun i => phi' i - phi i) (fun i _ => by positivity) (by rw [← Finset.sum_div, div_self hs.ne'])
    (fun i _ => mem_univ _)
  simp only [smul_eq_mul] at hj
  have e : ∑ i, Real.exp (phi i) / (∑ j, Real.exp (phi j)) * Real.exp (phi' i - phi i)
      = (∑ i, Real.exp (phi' i)) / ∑ j, Real.exp (phi j) := by
    rw [Finset.sum_div]
    refine Finset.sum_congr rfl fun i _ => ?_
    rw [div_mul_eq_mul_div, ← Real.exp_add]
    congr 2
    ring
  rw [e] at hj
  have hl := (Real.le_log_iff_exp_le (by positivity)).2 hj
  rw [Real.log_div hs'.ne' hs.ne'] at hl
  unfold Tangent
  simp only [multinomialCgf, multinomialMoments, expNormalized_eq, dotProduct, Pi.sub_apply, mul_assoc]
  rw [← Finset.mul_sum]
  have hN : (0 : ℝ) ≤ N := Nat.cast_nonneg N
  nlinarith [mul_le_mul_of_nonneg_left hl hN]

theorem tangent_binomial (N : ℕ) (phi phi' : Fin 1 → ℝ) : Tangent (binomialCgf N) (binomialMoments N) phi phi' := by
  have h := tangent_multinomial N ![phi 0, 0] ![phi' 0, 0]
  unfold Tangent at h ⊢
  simp only [multinomialCgf, multinomialMoments, expNormalized_eq, dotProduct, Fin.sum_univ_two, Matrix.cons_val_zero,
    Matrix.cons_val_one, Pi.sub_apply, Real.exp_zero, Matrix.cons_val_fin_one] at h
  simp only [binomialCgf, binomialMoments, dotProduct, Fin.sum_univ_one, Matrix.cons_val_zero, Pi.sub_apply]
  have e : (N : ℝ) / (1 + Real.exp (-phi 0)) = N * (Real.exp (phi 0) / (Real.exp (phi 0) + 1)) := by
    rw [Real.exp_neg]
    have := Real.exp_pos (phi 0)
    field_simp
    
  rw [e, add_comm 1, add_comm 1]
  simp only [sub_self, mul_zero, add_zero] at h
  linarith

/-! ### Dirichlet -/

theorem beta_density (phi : Fin 2 → ℝ) (h : ∀ i, 0 < phi i) (x : ℝ) (h0 : 0 < x) (h1 : x < 1) :
    Real.exp (logpdf (dirichletFixed ![x, 1 - x]) phi (dirichletCgf phi) (dirichletF ![x, 1 - x]))
      = ProbabilityTheory.betaPDFReal (phi 0) (phi 1) x := by
  have g0 := Real.Gamma_pos_of_pos (h 0)
  have g1 := Real.Gamma_pos_of_pos (h 1)
  have g2 := Real.Gamma_pos_of_pos (add_pos (h 0) (h 1))
  have hx : 0 < 1 - x := by linarith
  rw [ProbabilityTheory.betaPDFReal, if_pos ⟨h0, h1⟩, ProbabilityTheory.beta, Real.rpow_def_of_pos h0,
    Real.rpow_def_of_pos hx, one_div_div, ← Real.exp_log g2, ← Real.exp_log g0, ← Real.exp_log g1, ← Real.exp_add,
    ← Real.exp_sub, ← Real.exp_add, ← Real.exp_add, logpdf_eq]
  congr 1
  simp only [dotProduct, Fin.sum_univ_two, dirichletFixed, dirichletCgf, dirichletF, Matrix.cons_val_zero,
    Matrix.cons_val_one, Matrix.cons_val_fin_one, gammaln, add_sub_cancel, div_one]
  ring

/-- The density of two categories that `logpdf` evaluates integrates to one. -/
theorem C22_beta_normaliser (phi : Fin 2 → ℝ) (h : ∀ i, 0 < phi i) :
    ∫ x in Ioo (0 : ℝ) 1,
      Real.exp (logpdf (dirichletFixed ![x, 1 - x]) phi (dirichletCgf phi) (dirichletF ![x, 1 - x])) = 1 := by
  rw [setIntegral_congr_fun measurableSet_Ioo fun x hx => beta_density phi h x hx.1 hx.2]
  have hl := ProbabilityTheory.lintegral_betaPDF_eq_one (h 0) (h 1)
  rw [integral_eq_lintegral_of_nonneg_ae
    (ae_restrict_of_forall_mem measurableSet_Ioo fun x hx =>
      (ProbabilityTheory.betaPDFReal_pos hx.1 hx.2 (h 0) (h 1)).le)
    (ProbabilityTheory.stronglyMeasurable_betaPDFReal _ _).aestronglyMeasurable]
  rw [ProbabilityTheory.lintegral_betaPDF] at hl
  rw [setLIntegral_congr_fun measurableSet_Ioo
    (g := fun x => ENNReal.ofReal (1 / ProbabilityTheory.beta (phi 0) (phi 1) * x ^ (phi 0 - 1) * (1 - x) ^ (phi 1 - 1)))
    fun x hx => by simp only [ProbabilityTheory.betaPDFReal, if_pos (show 0 < x ∧ x < 1 from hx)], hl]
  rfl

theorem tangent_beta (phi phi' : Fin 2 → ℝ) (h : ∀ i, 0 < phi i) (h' : ∀ i, 0 < phi' i) :
    Tangent dirichletCgf dirichletMoments phi phi' := by
  refine tangent_of_concave _ _ _ _ (C22_dirichlet_gradient phi h) fun s hs0 hs1 => ?_
  refine concave_of_normalised (volume.restrict (Ioo (0 : ℝ) 1)) (fun x => dirichletFixed ![x, 1 - x])
    (fun x => dirichletF ![x, 1 - x]) _ _ _ s hs0 hs1
    (C22_beta_normaliser phi h) (C22_beta_normaliser phi' h') (C22_beta_normaliser _ fun i => ?_)
  simp only [Pi.add_apply, Pi.smul_apply, Pi.sub_apply, smul_eq_mul]
  nlinarith [h i, h' i]

/-- the inequality on a set of categories, by breaking off one category at a time -/
theorem tangent_dirichlet_finset {ι : Type*} [DecidableEq ι] (phi phi' : ι → ℝ) (h : ∀ i, 0 < phi i) (h' : ∀ i, 0 < phi' i)
    (s : Finset ι) (hs : s.Nonempty) :
    gammaln (∑ i ∈ s, phi' i) - ∑ i ∈ s, gammaln (phi' i)
      ≤ gammaln (∑ i ∈ s, phi i) - ∑ i ∈ s, gammaln (phi i)
        - ∑ i ∈ s, (digamma (phi i) - digamma (∑ j ∈ s, phi j)) * (phi' i - phi i) := by
  induction hs using Finset.Nonempty.cons_induction with
  | singleton a => simp
  | cons a s ha hs ih =>
    have p := Finset.sum_pos (fun i _ => h i) hs
    have p' := Finset.sum_pos (fun i _ => h' i) hs
    have hb := tangent_beta ![phi a, ∑ i ∈ s, phi i] ![phi' a, ∑ i ∈ s, phi' i]
      (by intro i; fin_cases i <;> simp [h a, p]) (by intro i; fin_cases i <;> simp [h' a, p'])
    unfold Tangent at hb
    simp only [dirichletCgf, dirichletMoments, dotProduct, Fin.sum_univ_two, Matrix.cons_val_zero, Matrix.cons_val_one,
      Matrix.cons_val_fin_one, Pi.sub_apply] at hb
    simp only [Finset.sum_cons]
    have e1 : ∀ c : ℝ, ∑ i ∈ s, (digamma (phi i) - c) * (phi' i - phi i)
        = ∑ i ∈ s, digamma (phi i) * (phi' i - phi i) - c * (∑ i ∈ s, phi' i - ∑ i ∈ s, phi i) := by
      intro c
      rw [← Finset.sum_sub_distrib, Finset.mul_sum, ← Finset.sum_sub_distrib]
      exact Finset.sum_congr rfl fun i _ => by ring
    rw [e1] at ih ⊢
    linarith

theorem tangent_dirichlet {ι : Type*} [Fintype ι] [Nonempty ι] (phi phi' : ι → ℝ) (h : ∀ i, 0 < phi i)
    (h' : ∀ i, 0 < phi' i) : Tangent dirichletCgf dirichletMoments phi phi' := by
  classical
  exact tangent_dirichlet_finset phi phi' h h' Finset.univ Finset.univ_nonempty

/-! ### the Gaussian families and Wishart -/

section
variable {ι : Type*} [Fintype ι] [DecidableEq ι]

open scoped MatrixOrder in
/-- `A⁻¹ B` of positive definite matrices has positive eigenvalues. -/
theorem exists_eigenvalues (A B : Matrix ι ι ℝ) (hA : A.PosDef) (hB : B.PosDef) :
    ∃ l : ι → ℝ, (∀ i, 0 < l i) ∧ (A⁻¹ * B).trace = ∑ i, l i ∧ (A⁻¹ * B).det = ∏ i, l i := by
  obtain ⟨S, hS⟩ := CStarAlgebra.nonneg_iff_eq_star_mul_self.mp hA.inv.posSemidef.nonneg
  rw [Matrix.star_eq_conjTranspose] at hS
  have hdet : IsUnit S.det := by
    have h1 : (S.conjTranspose * S).det ≠ 0 := by rw [← hS]; exact hA.inv.det_pos.ne'
    rw [Matrix.det_mul] at h1
    exact (right_ne_zero_of_mul h1).isUnit
  have hM : (S * B * S.conjTranspose).PosDef := by
    refine hB.mul_mul_conjTranspose_same ?_
    intro x y hxy
    have := congrArg (fun v => Matrix.vecMul v S⁻¹) hxy
    simpa [Matrix.vecMul_vecMul, Matrix.mul_nonsing_inv _ hdet] using this
  refine ⟨hM.1.eigenvalues, hM.eigenvalues_pos, ?_, ?_⟩
  · have h := hM.1.trace_eq_sum_eigenvalues
    rw [hS, Matrix.mul_assoc, Matrix.trace_mul_comm, ]
    simpa using h
  · have h := hM.1.det_eq_prod_eigenvalues
    simp only [RCLike.ofReal_real_eq_id, id_eq] at h
    rw [← h, hS, Matrix.det_mul, Matrix.det_mul, Matrix.det_mul, Matrix.det_mul]
    ring

theorem log_det_inv_mul (A B : Matrix ι ι ℝ) (hA : A.PosDef) (hB : B.PosDef) :
    Real.log (A⁻¹ * B).det = Real.log B.det - Real.log A.det := by
  rw [Matrix.det_mul, Matrix.det_nonsing_inv, Ring.inverse_eq_inv', Real.log_mul (inv_ne_zero hA.det_pos.ne') hB.det_pos.ne',
    Real.log_inv]
  ring

/-- The Kullback-Leibler divergence of two centred Gaussians is not negative. -/
theorem log_det_le_trace (A B : Matrix ι ι ℝ) (hA : A.PosDef) (hB : B.PosDef) :
    Real.log B.det - Real.log A.det ≤ (A⁻¹ * B).trace - Fintype.card ι := by
  obtain ⟨l, hl, ht, hd⟩ := exists_eigenvalues A B hA hB
  rw [← log_det_inv_mul A B hA hB, ht, hd, Real.log_prod fun i _ => (hl i).ne', ← Finset.card_univ, Finset.card_eq_sum_ones,
    Nat.cast_sum, Nat.cast_one, ← Finset.sum_sub_distrib]
  exact Finset.sum_le_sum fun i _ => Real.log_le_sub_one_of_pos (hl i)

theorem quad_le (A : Matrix ι ι ℝ) (hA : A.PosDef) (m m' : ι → ℝ) :
    2 * (m ⬝ᵥ A.mulVec m') ≤ m ⬝ᵥ A.mulVec m + m' ⬝ᵥ A.mulVec m' := by
  have h := hA.posSemidef.dotProduct_mulVec_nonneg (m' - m)
  have hs : m' ⬝ᵥ A.mulVec m = m ⬝ᵥ A.mulVec m' := by
    rw [Matrix.dotProduct_mulVec, ← Matrix.mulVec_transpose, posDef_transpose hA, dotProduct_comm]
  simp only [star_trivial, Matrix.mulVec_sub, sub_dotProduct, dotProduct_sub] at h
  linarith

omit [DecidableEq ι] in
theorem frob_sub_right (A B C : Matrix ι ι ℝ) : frob A (B - C) = frob A B - frob A C := by
  simp [frob, mul_sub]

omit [DecidableEq ι] in
theorem frob_smul_right (c : ℝ) (A B : Matrix ι ι ℝ) : frob A (c • B) = c * frob A B := by
  simp only [frob, Matrix.smul_apply, smul_eq_mul, Finset.mul_sum]
  exact Finset.sum_congr rfl fun i _ => Finset.sum_congr rfl fun j _ => by ring

theorem frob_inv_self (A : Matrix ι ι ℝ) (hA : A.PosDef) : frob A⁻¹ A = Fintype.card ι := by
  have hs : (A⁻¹).transpose = A⁻¹ := by rw [Matrix.transpose_nonsing_inv, posDef_transpose hA]
  rw [← trace_mul_eq_frob _ _ hs, Matrix.nonsing_inv_mul _ hA.det_pos.ne'.isUnit, Matrix.trace_one]

theorem frob_inv_le (A B : Matrix ι ι ℝ) (hA : A.PosDef) (hB : B.PosDef) :
    Real.log B.det - Real.log A.det ≤ frob A⁻¹ B - Fintype.card ι := by
  have hs : (A⁻¹).transpose = A⁻¹ := by rw [Matrix.transpose_nonsing_inv, posDef_transpose hA]
  rw [← trace_mul_eq_frob _ _ hs]
  exact log_det_le_trace A B hA hB

theorem solve_eq (A : Matrix ι ι ℝ) (hA : A.PosDef) (b : ι → ℝ) : A.mulVec (A⁻¹.mulVec b) = b := by
  rw [Matrix.mulVec_mulVec, Matrix.mul_nonsing_inv _ hA.det_pos.ne'.isUnit, Matrix.one_mulVec]

omit [Fintype ι] [DecidableEq ι] in
theorem half_smul (A : Matrix ι ι ℝ) : A = (-0.5 : ℝ) • ((-2 : ℝ) • A) := by
  rw [smul_smul]
  norm_num

theorem tangent_gaussian (phi phi' : GIx ι → ℝ) (h : ((-2 : ℝ) • g1 phi).PosDef) (h' : ((-2 : ℝ) • g1 phi').PosDef) :
    Tangent gaussianCgf gaussianMoments phi phi' := by
  have e1 : g1 (phi' - phi) = (-0.5 : ℝ) • ((-2 : ℝ) • g1 phi') - (-0.5 : ℝ) • ((-2 : ℝ) • g1 phi) := by
    rw [← half_smul, ← half_smul]; rfl
  have e0 : g0 (phi' - phi) = g0 phi' - g0 phi := rfl
  have s := solve_eq _ h (g0 phi)
  have s' := solve_eq _ h' (g0 phi')
  have hl := frob_inv_le _ _ h h'
  have hi := frob_inv_self _ h
  simp only [Tangent, gaussianCgf, gaussianMoments, mkG_dotProduct, e0, e1, frob_add, frob_outer]
  generalize (-2 : ℝ) • g1 phi = L at *
  generalize (-2 : ℝ) • g1 phi' = L' at *
  generalize L⁻¹.mulVec (g0 phi) = m at *
  generalize L'⁻¹.mulVec (g0 phi') = m' at *
  have hq := quad_le L' h' m m'
  rw [← s, ← s', frob_sub_right, frob_smul_right, frob_smul_right, hi, Matrix.sub_mulVec, Matrix.smul_mulVec,
    Matrix.smul_mulVec, dotProduct_sub, dotProduct_sub, dotProduct_smul, dotProduct_smul, smul_eq_mul, smul_eq_mul]
  linarith

theorem tangent_gaussianGamma (phi phi' : GGIx ι → ℝ) (h : ((-2 : ℝ) • gg1 phi).PosDef) (hb : 0 < ggB phi)
    (ha : 0 < gg3 phi) (h' : ((-2 : ℝ) • gg1 phi').PosDef) (hb' : 0 < ggB phi') (ha' : 0 < gg3 phi') :
    Tangent ggCgf ggMoments phi phi' := by
  have e1 : gg1 (phi' - phi) = (-0.5 : ℝ) • ((-2 : ℝ) • gg1 phi') - (-0.5 : ℝ) • ((-2 : ℝ) • gg1 phi) := by
    rw [← half_smul, ← half_smul]; rfl
  have e0 : gg0 (phi' - phi) = gg0 phi' - gg0 phi := rfl
  have e3 : gg3 (phi' - phi) = gg3 phi' - gg3 phi := rfl
  have e2 : gg2 (phi' - phi) = gg2 phi' - gg2 phi := rfl
  have s := solve_eq _ h (gg0 phi)
  have s' := solve_eq _ h' (gg0 phi')
  have hl := frob_inv_le _ _ h h'
  have hi := frob_inv_self _ h
  have b : gg2 phi = -ggB phi - 0.5 * (ggMu phi ⬝ᵥ gg0 phi) := by rw [ggB]; ring
  have b' : gg2 phi' = -ggB phi' - 0.5 * (ggMu phi' ⬝ᵥ gg0 phi') := by rw [ggB]; ring
  have hg := tangent_gamma ![-ggB phi, gg3 phi] ![-ggB phi', gg3 phi'] (by simpa using hb) (by simpa using ha)
    (by simpa using hb') (by simpa using ha')
  simp only [Tangent, gammaCgf, gammaMoments, dotProduct, Fin.sum_univ_two, Matrix.cons_val_zero, Matrix.cons_val_one,
    Matrix.cons_val_fin_one, Pi.sub_apply, neg_neg] at hg
  have hu : 0 < gg3 phi / ggB phi := div_pos ha hb
  simp only [Tangent, ggCgf, ggMoments, mkGG_dotProduct, e0, e1, e2, e3, b, b', frob_add, frob_smul, frob_outer,
    smul_dotProduct, smul_eq_mul]
  generalize gg3 phi / ggB phi = a at *
  generalize ggB phi = B at *
  generalize ggB phi' = B' at *
  unfold ggMu
  generalize (-2 : ℝ) • gg1 phi = L at *
  generalize (-2 : ℝ) • gg1 phi' = L' at *
  generalize L⁻¹.mulVec (gg0 phi) = m at *
  generalize L'⁻¹.mulVec (gg0 phi') = m' at *
  have hq := mul_le_mul_of_nonneg_left (quad_le L' h' m m') hu.le
  rw [← s, ← s', frob_sub_right, frob_smul_right, frob_smul_right, hi, Matrix.sub_mulVec, Matrix.smul_mulVec,
    Matrix.smul_mulVec, dotProduct_sub, dotProduct_sub, dotProduct_smul, dotProduct_smul, smul_eq_mul, smul_eq_mul]
  ring_nf at hg hq hl ⊢
  linarith

theorem tangent_wishart (phi phi' : WIx ι → ℝ) (h : (-w0 phi).PosDef) (hn : ((Fintype.card ι : ℝ) - 1) / 2 < w1 phi)
    (h' : (-w0 phi').PosDef) (hn' : ((Fintype.card ι : ℝ) - 1) / 2 < w1 phi') :
    Tangent wishartCgf wishartMoments phi phi' := by
  have e0 : w0 (phi' - phi) = (-w0 phi) - (-w0 phi') := by
    rw [neg_sub_neg]; rfl
  have e1 : w1 (phi' - phi) = w1 phi' - w1 phi := rfl
  have hi := frob_inv_self _ h
  have hs : ((-w0 phi)⁻¹).transpose = (-w0 phi)⁻¹ := by rw [Matrix.transpose_nonsing_inv, posDef_transpose h]
  have hld := log_det_inv_mul _ _ h h'
  obtain ⟨l, hl, ht, hd⟩ := exists_eigenvalues _ _ h h'
  rw [trace_mul_eq_frob _ _ hs] at ht
  rw [hd, Real.log_prod fun i _ => (hl i).ne'] at hld
  simp only [Tangent, wishartCgf, wishartMoments, mkW_dotProduct, e0, e1, frob_smul, frob_sub_right, hi, ht]
  generalize w1 phi = n at *
  generalize w1 phi' = n' at *
  generalize -w0 phi = A at *
  generalize -w0 phi' = B at *
  -- one gamma inequality for every pair of an eigenvalue and a term of the multivariate gamma function
  let e := Fintype.equivFin ι
  have hterm : ∀ i : ι, n' * Real.log (l i) - gammaln (n' - 0.5 * (e i : ℕ)) + gammaln (n - 0.5 * (e i : ℕ))
      + digamma (n - 0.5 * (e i : ℕ)) * (n' - n) ≤ n * (l i - 1) := by
    intro i
    have hk : ((e i : ℕ) : ℝ) ≤ (Fintype.card ι : ℝ) - 1 := by
      have : (e i : ℕ) + 1 ≤ Fintype.card ι := (e i).2
      have : ((e i : ℕ) : ℝ) + 1 ≤ Fintype.card ι := by exact_mod_cast this
      linarith
    have hg := tangent_gamma ![-1, n - 0.5 * (e i : ℕ)] ![-l i, n' - 0.5 * (e i : ℕ)] (by simp) (by
        simp only [Matrix.cons_val_one, Matrix.cons_val_fin_one]; linarith) (by simpa using hl i) (by
        simp only [Matrix.cons_val_one, Matrix.cons_val_fin_one]; linarith)
    simp only [Tangent, gammaCgf, gammaMoments, dotProduct, Fin.sum_univ_two, Matrix.cons_val_zero, Matrix.cons_val_one,
      Matrix.cons_val_fin_one, Pi.sub_apply, neg_neg, Real.log_one, mul_zero, sub_zero, div_one, zero_sub] at hg
    have hl1 := mul_le_mul_of_nonneg_left (Real.log_le_sub_one_of_pos (hl i)) (by positivity : (0 : ℝ) ≤ 0.5 * (e i : ℕ))
    ring_nf at hg hl1 ⊢
    linarith
  have hsum := Finset.sum_le_sum fun i (_ : i ∈ Finset.univ) => hterm i
  have reindex : ∀ f : ℕ → ℝ, ∑ i : ι, f (e i : ℕ) = ∑ j ∈ Finset.range (Fintype.card ι), f j := by
    intro f
    rw [← Fin.sum_univ_eq_sum_range]
    exact Equiv.sum_comp e fun j => f j
  simp only [Finset.sum_add_distrib, Finset.sum_sub_distrib, ← Finset.mul_sum, ← Finset.sum_mul, Finset.sum_const,
    Finset.card_univ, nsmul_eq_mul, mul_one] at hsum
  rw [reindex fun j => gammaln (n' - 0.5 * j), reindex fun j => gammaln (n - 0.5 * j),
    reindex fun j => digamma (n - 0.5 * j), hld] at hsum
  simp only [multigammaln, multidigamma]
  ring_nf at hsum ⊢
  linarith

end

end Verif
