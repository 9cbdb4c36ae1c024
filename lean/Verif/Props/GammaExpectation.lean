import Verif.Props.Moments
import Mathlib.MeasureTheory.Integral.Gamma
import Mathlib.Analysis.SpecialFunctions.Gamma.Deriv
import Mathlib.Analysis.Complex.RealDeriv

/-!
# C22: the exact expectations of the gamma distribution
-/

namespace Verif
open Spec MeasureTheory Set Filter Topology Asymptotics

theorem gamma_log_mellin (a : ℝ) (ha : 0 < a) :
    MellinConvergent (fun t : ℝ => Real.log t • (Real.exp (-t) : ℂ)) (a : ℂ) ∧
    HasDerivAt (mellin fun t : ℝ => (Real.exp (-t) : ℂ)) (mellin (fun t : ℝ => Real.log t • (Real.exp (-t) : ℂ)) a) (a : ℂ) := by
  refine mellin_hasDerivAt_of_isBigO_rpow (E := ℂ) (a := a + 1) (b := 0) ?_ ?_ ?_ ?_ ?_
  · refine (Continuous.continuousOn ?_).locallyIntegrableOn measurableSet_Ioi
    exact Complex.continuous_ofReal.comp (Real.continuous_exp.comp continuous_neg)
  · rw [← isBigO_norm_left]
    simp_rw [Complex.norm_real, isBigO_norm_left]
    simpa only [neg_one_mul] using (isLittleO_exp_neg_mul_rpow_atTop zero_lt_one _).isBigO
  · simp
  · simp_rw [neg_zero, Real.rpow_zero]
    refine isBigO_const_of_tendsto (?_ : Tendsto _ _ (𝓝 (1 : ℂ))) one_ne_zero
    rw [(by simp : (1 : ℂ) = Real.exp (-0))]
    exact (Complex.continuous_ofReal.comp (Real.continuous_exp.comp continuous_neg)).continuousWithinAt
  · simpa using ha

theorem gamma_log_term (a t : ℝ) (ht : 0 < t) :
    (t : ℂ) ^ ((a : ℂ) - 1) • (Real.log t • (Real.exp (-t) : ℂ)) = ((t ^ (a - 1) * (Real.log t * Real.exp (-t)) : ℝ) : ℂ) := by
  push_cast
  rw [Complex.ofReal_cpow ht.le]
  simp

theorem integrable_gamma_log (a : ℝ) (ha : 0 < a) :
    IntegrableOn (fun t : ℝ => t ^ (a - 1) * (Real.log t * Real.exp (-t))) (Ioi 0) := by
  have h := (gamma_log_mellin a ha).1
  unfold MellinConvergent at h
  have h' : IntegrableOn (fun t : ℝ => ((t ^ (a - 1) * (Real.log t * Real.exp (-t)) : ℝ) : ℂ)) (Ioi 0) :=
    h.congr_fun (fun t ht => gamma_log_term a t ht) measurableSet_Ioi
  exact h'.re

theorem hasDerivAt_Gamma_integral (a : ℝ) (ha : 0 < a) :
    HasDerivAt Real.Gamma (∫ t in Ioi (0 : ℝ), t ^ (a - 1) * (Real.log t * Real.exp (-t))) a := by
  have h := (gamma_log_mellin a ha).2
  have e : mellin (fun t : ℝ => Real.log t • (Real.exp (-t) : ℂ)) a
      = ((∫ t in Ioi (0 : ℝ), t ^ (a - 1) * (Real.log t * Real.exp (-t)) : ℝ) : ℂ) := by
    rw [← integral_complex_ofReal]
    exact setIntegral_congr_fun measurableSet_Ioi fun t ht => gamma_log_term a t ht
  rw [e, ← Complex.GammaIntegral_eq_mellin] at h
  have h2 : HasDerivAt Complex.Gamma
      ((∫ t in Ioi (0 : ℝ), t ^ (a - 1) * (Real.log t * Real.exp (-t)) : ℝ) : ℂ) (a : ℂ) := by
    refine h.congr_of_eventuallyEq ?_
    have : {z : ℂ | 0 < z.re} ∈ 𝓝 (a : ℂ) :=
      (isOpen_lt continuous_const Complex.continuous_re).mem_nhds (by simpa using ha)
    filter_upwards [this] with z hz
    exact Complex.Gamma_eq_integral hz
  have h3 := h2.real_of_complex
  rw [Complex.ofReal_re] at h3
  refine hasDerivAt_of_eq h3 (fun t => ?_) rfl
  rw [Complex.Gamma_ofReal, Complex.ofReal_re]

theorem digamma_eq (a : ℝ) (ha : 0 < a) :
    digamma a = (∫ t in Ioi (0 : ℝ), t ^ (a - 1) * (Real.log t * Real.exp (-t))) / Real.Gamma a :=
  ((hasDerivAt_Gamma_integral a ha).log (Real.Gamma_pos_of_pos ha).ne').deriv

theorem gamma_density (phi : Fin 2 → ℝ) (h0 : phi 0 < 0) (x : ℝ) (hx : 0 < x) :
    Real.exp (logpdf (gammaFixed x) phi (gammaCgf phi) (gammaF x))
      = (-phi 0) ^ phi 1 * Real.exp (-gammaln (phi 1)) * (x ^ (phi 1 - 1) * Real.exp (-(-phi 0 * x))) := by
  have hb : 0 < -phi 0 := by linarith
  rw [Real.rpow_def_of_pos hb, Real.rpow_def_of_pos hx, ← Real.exp_add, ← Real.exp_add, ← Real.exp_add, logpdf_eq]
  congr 1
  simp only [dotProduct, Fin.sum_univ_two, gammaFixed, gammaCgf, gammaF, Matrix.cons_val_zero, Matrix.cons_val_one]
  ring

theorem exp_neg_gammaln (a : ℝ) (ha : 0 < a) : Real.exp (-gammaln a) = (Real.Gamma a)⁻¹ := by
  rw [gammaln, Real.exp_neg, Real.exp_log (Real.Gamma_pos_of_pos ha)]

/-- The density that `logpdf` evaluates integrates to one. -/
theorem C22_gamma_normaliser (phi : Fin 2 → ℝ) (h0 : phi 0 < 0) (h1 : 0 < phi 1) :
    ∫ x in Ioi (0 : ℝ), Real.exp (logpdf (gammaFixed x) phi (gammaCgf phi) (gammaF x)) = 1 := by
  have hb : 0 < -phi 0 := by linarith
  rw [setIntegral_congr_fun measurableSet_Ioi fun x hx => gamma_density phi h0 x hx, integral_const_mul,
    Real.integral_rpow_mul_exp_neg_mul_Ioi h1 hb, exp_neg_gammaln _ h1, one_div, Real.inv_rpow hb.le]
  have := (Real.Gamma_pos_of_pos h1).ne'
  have := (Real.rpow_pos_of_pos hb (phi 1)).ne'
  field_simp

/-- The first moment is the expectation. -/
theorem C22_gamma_mean (phi : Fin 2 → ℝ) (h0 : phi 0 < 0) (h1 : 0 < phi 1) :
    ∫ x in Ioi (0 : ℝ), x * Real.exp (logpdf (gammaFixed x) phi (gammaCgf phi) (gammaF x)) = gammaMoments phi 0 := by
  have hb : 0 < -phi 0 := by linarith
  have e : ∀ x ∈ Ioi (0 : ℝ), x * Real.exp (logpdf (gammaFixed x) phi (gammaCgf phi) (gammaF x))
      = (-phi 0) ^ phi 1 * Real.exp (-gammaln (phi 1)) * (x ^ (phi 1 + 1 - 1) * Real.exp (-(-phi 0 * x))) := by
    intro x hx
    rw [gamma_density phi h0 x hx, show phi 1 + 1 - 1 = (phi 1 - 1) + 1 by ring, Real.rpow_add_one (ne_of_gt hx)]
    ring
  rw [setIntegral_congr_fun measurableSet_Ioi e, integral_const_mul,
    Real.integral_rpow_mul_exp_neg_mul_Ioi (by linarith) hb, exp_neg_gammaln _ h1, one_div, Real.inv_rpow hb.le,
    Real.Gamma_add_one h1.ne', Real.rpow_add_one hb.ne']
  have := (Real.Gamma_pos_of_pos h1).ne'
  have := (Real.rpow_pos_of_pos hb (phi 1)).ne'
  simp only [gammaMoments, Matrix.cons_val_zero]
  field_simp

/-- The second moment is the expectation of the logarithm. -/
theorem C22_gamma_log_mean (phi : Fin 2 → ℝ) (h0 : phi 0 < 0) (h1 : 0 < phi 1) :
    ∫ x in Ioi (0 : ℝ), Real.log x * Real.exp (logpdf (gammaFixed x) phi (gammaCgf phi) (gammaF x))
      = gammaMoments phi 1 := by
  have hb : 0 < -phi 0 := by linarith
  have hG := (Real.Gamma_pos_of_pos h1).ne'
  set b := -phi 0 with hbd
  set a := phi 1 with had
  let G : ℝ → ℝ := fun t => b * (Real.Gamma a)⁻¹ *
    (t ^ (a - 1) * (Real.log t * Real.exp (-t)) - Real.log b * (Real.exp (-t) * t ^ (a - 1)))
  have e : ∀ x ∈ Ioi (0 : ℝ), Real.log x * Real.exp (logpdf (gammaFixed x) phi (gammaCgf phi) (gammaF x)) = G (b * x) := by
    intro x hx
    have hx' : (0 : ℝ) < x := hx
    rw [gamma_density phi h0 x hx, exp_neg_gammaln _ h1, ← hbd, ← had]
    simp only [G]
    rw [Real.log_mul hb.ne' hx'.ne', Real.mul_rpow hb.le hx'.le, Real.rpow_sub_one hb.ne']
    field_simp
    ring
  rw [setIntegral_congr_fun measurableSet_Ioi e, integral_comp_mul_left_Ioi G 0 hb, mul_zero, integral_const_mul,
    integral_sub (integrable_gamma_log a h1) ((Real.GammaIntegral_convergent h1).const_mul _), integral_const_mul,
    ← Real.Gamma_eq_integral h1]
  simp only [gammaMoments, Matrix.cons_val_one, Matrix.cons_val_fin_one]
  rw [← hbd, ← had, digamma_eq a h1, smul_eq_mul]
  generalize (∫ t in Ioi (0 : ℝ), t ^ (a - 1) * (Real.log t * Real.exp (-t))) = I
  field_simp

example : ∫ x in Ioi (0 : ℝ), x * Real.exp (logpdf (gammaFixed x) ![-2, 3] (gammaCgf ![-2, 3]) (gammaF x)) = 3 / 2 := by
  rw [C22_gamma_mean _ (by norm_num) (by norm_num)]
  norm_num [gammaMoments]

end Verif
