import Verif.Model.RandomUtils
import Verif.Props.GaussianExact
import Verif.Props.GammaExpectation
import Verif.Props.GaussianConjugacy
import Verif.Props.LogPdf

/-!
# C72: the functions for densities and entropies compute densities and entropies
-/

namespace Verif
open Spec Matrix MeasureTheory Set

section
variable {ι : Type} [Fintype ι] [DecidableEq ι]

/-- **C72** `gaussian_logpdf` is the logarithm of the normal density. -/
theorem C72_gaussian_logpdf (mu y : ι → ℝ) (V : Matrix ι ι ℝ) (hV : V.PosDef) :
    randGaussianLogpdf (y ⬝ᵥ V *ᵥ y) (y ⬝ᵥ V *ᵥ mu) (mu ⬝ᵥ V *ᵥ mu) (Real.log V.det) (Fintype.card ι)
      = Real.log (gaussianPdf mu V y) := by
  have hd := hV.det_pos
  have h2 : (0 : ℝ) < 2 * Real.pi := by positivity
  rw [gaussianPdf, Real.log_mul (by positivity) (by positivity), Real.log_mul (by positivity) (by positivity),
    Real.log_rpow h2, Real.log_rpow hd, Real.log_exp, quad_sub V (posDef_transpose hV)]
  simp only [randGaussianLogpdf]
  rw [dotProduct_comm (V *ᵥ mu) y]
  ring

/-- the density with mean `mu` and precision `V` as that of a node -/
theorem gaussianPdf_node (mu x : ι → ℝ) (V : Matrix ι ι ℝ) (hV : V.PosDef) :
    gaussianPdf mu V x = Real.exp (logpdf (gaussianFixed x) (mkG (V *ᵥ mu) ((-1 / 2 : ℝ) • V))
      (gaussianCgf (mkG (V *ᵥ mu) ((-1 / 2 : ℝ) • V))) (gaussianF (Fintype.card ι))) := by
  have hd := hV.det_pos
  have h2 : (0 : ℝ) < 2 * Real.pi := by positivity
  have e : (-2 : ℝ) • g1 (mkG (V *ᵥ mu) ((-1 / 2 : ℝ) • V)) = V := by
    ext i j; simp [g1, mkG]; ring
  have hp : 0 < gaussianPdf mu V x := by unfold gaussianPdf; positivity
  rw [← Real.exp_log hp, ← C72_gaussian_logpdf mu x V hV]
  congr 1
  have hu : IsUnit V.det := hd.ne'.isUnit
  rw [logpdf_eq, gaussianCgf]
  simp only [e]
  rw [show g0 (mkG (V *ᵥ mu) ((-1 / 2 : ℝ) • V)) = V *ᵥ mu from rfl, mulVec_mulVec, nonsing_inv_mul _ hu, one_mulVec,
    mkG_dot]
  simp only [randGaussianLogpdf, gaussianF, smul_mulVec, dotProduct_smul, smul_eq_mul]
  rw [dotProduct_comm (V *ᵥ mu) x]
  ring

/-- **C72** `gaussian_entropy` is the differential entropy of the normal distribution. -/
theorem C72_gaussian_entropy (mu : ι → ℝ) (V : Matrix ι ι ℝ) (hV : V.PosDef) :
    -∫ x, gaussianPdf mu V x * Real.log (gaussianPdf mu V x)
      = randGaussianEntropy (Real.log V.det) (Fintype.card ι) := by
  have hd := hV.det_pos
  have h2 : (0 : ℝ) < 2 * Real.pi := by positivity
  have e : (-2 : ℝ) • g1 (mkG (V *ᵥ mu) ((-1 / 2 : ℝ) • V)) = V := by
    ext i j; simp [g1, mkG]; ring
  obtain ⟨U, hC, hI⟩ := gaussian_integral (mkG (V *ᵥ mu) ((-1 / 2 : ℝ) • V)) (by rw [e]; exact hV)
  rw [e] at hC
  have hu : IsUnit V.det := hd.ne'.isUnit
  have hU : IsUnit U.det := by
    have : V.det = U.det * U.det := by rw [← hC, det_mul, det_transpose]
    rw [this] at hu
    exact isUnit_of_mul_isUnit_left hu
  have hm : ((-2 : ℝ) • g1 (mkG (V *ᵥ mu) ((-1 / 2 : ℝ) • V)))⁻¹ *ᵥ g0 (mkG (V *ᵥ mu) ((-1 / 2 : ℝ) • V)) = mu := by
    rw [e, show g0 (mkG (V *ᵥ mu) ((-1 / 2 : ℝ) • V)) = V *ᵥ mu from rfl, mulVec_mulVec, nonsing_inv_mul _ hu, one_mulVec]
  set c := -(Fintype.card ι : ℝ) / 2 * Real.log (2 * Real.pi) + 1 / 2 * Real.log V.det with hc
  have hlog : ∀ z : ι → ℝ, Real.log (gaussianPdf mu V (mu + U⁻¹ *ᵥ z)) = c + -1 / 2 * ∑ k, z k * z k := by
    intro z
    rw [gaussianPdf, Real.log_mul (by positivity) (by positivity), Real.log_mul (by positivity) (by positivity),
      Real.log_rpow h2, Real.log_rpow hd, Real.log_exp, add_sub_cancel_left]
    have : (U⁻¹ *ᵥ z) ⬝ᵥ V *ᵥ (U⁻¹ *ᵥ z) = ∑ k, z k * z k := by
      have hz : U *ᵥ (U⁻¹ *ᵥ z) = z := by rw [mulVec_mulVec, mul_nonsing_inv _ hU, one_mulVec]
      rw [← hC, ← mulVec_mulVec, hz, dotProduct_mulVec, vecMul_transpose, hz]
      rfl
    rw [this, hc]
  have hint : ∫ x, gaussianPdf mu V x * Real.log (gaussianPdf mu V x)
      = ∫ z : ι → ℝ, (c * standardNormalPdf z + ∑ k, -1 / 2 * (z k * z k * standardNormalPdf z)) := by
    have h := hI fun x => Real.log (gaussianPdf mu V x)
    rw [hm] at h
    simp only [hlog] at h
    calc _ = _ := integral_congr_ae (.of_forall fun x => by
            show gaussianPdf mu V x * Real.log (gaussianPdf mu V x) = _
            rw [mul_comm]
            exact congrArg _ (gaussianPdf_node mu x V hV))
      _ = _ := h
      _ = _ := integral_congr_ae (.of_forall fun z => by
            show (c + -1 / 2 * ∑ k, z k * z k) * standardNormalPdf z = _
            rw [add_mul, Finset.mul_sum, Finset.sum_mul]
            congr 1
            exact Finset.sum_congr rfl fun k _ => by ring)
  rw [hint, integral_add (standard_zero.1.const_mul _) (integrable_finsetSum _ fun k _ => (standard_two k k).1.const_mul _),
    integral_finsetSum _ fun k _ => (standard_two k k).1.const_mul _]
  simp only [integral_const_mul, standard_zero.2, (standard_two _ _).2, if_true, Finset.sum_const, Finset.card_univ,
    nsmul_eq_mul, mul_one]
  rw [hc, randGaussianEntropy]
  ring

end

/-- **C72** `gamma_logpdf` is the logarithm of the gamma density. -/
theorem C72_gamma_logpdf (a b x : ℝ) (ha : 0 < a) (hb : 0 < b) (hx : 0 < x) :
    randGammaLogpdf (b * x) (Real.log x) (a * Real.log x) (a * Real.log b) (gammaln a) = Real.log (gammaPdf a b x) := by
  have hG := Real.Gamma_pos_of_pos ha
  rw [gammaPdf, Real.log_mul (by positivity) (by positivity), Real.log_mul (by positivity) (by positivity),
    Real.log_div (by positivity) (by positivity), Real.log_rpow hb, Real.log_rpow hx, Real.log_exp]
  simp only [randGammaLogpdf, gammaln]
  ring

theorem gammaPdf_node (a b x : ℝ) (ha : 0 < a) (hb : 0 < b) (hx : 0 < x) :
    gammaPdf a b x = Real.exp (logpdf (gammaFixed x) ![-b, a] (gammaCgf ![-b, a]) (gammaF x)) := by
  rw [gamma_density ![-b, a] (by simpa using hb) x hx]
  simp only [cons_val_zero, cons_val_one, neg_neg]
  rw [exp_neg_gammaln a ha, gammaPdf]
  ring

theorem integrableOn_of_ne {f : ℝ → ℝ} {s : Set ℝ} (h : ∫ x in s, f x ≠ 0) : IntegrableOn f s := by
  by_contra hn
  exact h (integral_undef hn)

theorem integrable_log_gammaPdf (a b : ℝ) (ha : 0 < a) (hb : 0 < b) :
    IntegrableOn (fun x => Real.log x * gammaPdf a b x) (Ioi 0) := by
  let G : ℝ → ℝ := fun t => b * (Real.Gamma a)⁻¹ *
    (t ^ (a - 1) * (Real.log t * Real.exp (-t)) - Real.log b * (Real.exp (-t) * t ^ (a - 1)))
  have hG : IntegrableOn G (Ioi (b * 0)) := by
    rw [mul_zero]
    exact ((integrable_gamma_log a ha).sub ((Real.GammaIntegral_convergent ha).const_mul _)).const_mul _
  refine ((integrableOn_Ioi_comp_mul_left_iff G 0 hb).2 hG).congr_fun (fun x hx => ?_) measurableSet_Ioi
  have hx' : (0 : ℝ) < x := hx
  have hg := (Real.Gamma_pos_of_pos ha).ne'
  simp only [G, gammaPdf]
  rw [Real.log_mul hb.ne' hx'.ne', Real.mul_rpow hb.le hx'.le, Real.rpow_sub_one hb.ne']
  field_simp
  ring

/-- **C72** `gamma_entropy` is the differential entropy of the gamma distribution. -/
theorem C72_gamma_entropy (a b : ℝ) (ha : 0 < a) (hb : 0 < b) :
    -∫ x in Ioi (0 : ℝ), gammaPdf a b x * Real.log (gammaPdf a b x)
      = randGammaEntropy a (Real.log b) (gammaln a) (digamma a) (a * digamma a) := by
  have h0 : (![-b, a] : Fin 2 → ℝ) 0 < 0 := by simpa using hb
  have h1 : 0 < (![-b, a] : Fin 2 → ℝ) 1 := by simpa using ha
  have n1 : ∫ x in Ioi (0 : ℝ), gammaPdf a b x = 1 := by
    rw [← C22_gamma_normaliser ![-b, a] h0 h1]
    exact setIntegral_congr_fun measurableSet_Ioi fun x hx => gammaPdf_node a b x ha hb hx
  have n2 : ∫ x in Ioi (0 : ℝ), x * gammaPdf a b x = a / b := by
    have : gammaMoments ![-b, a] 0 = a / b := by simp [gammaMoments]
    rw [← this, ← C22_gamma_mean ![-b, a] h0 h1]
    exact setIntegral_congr_fun measurableSet_Ioi fun x hx => congrArg _ (gammaPdf_node a b x ha hb hx)
  have n3 : ∫ x in Ioi (0 : ℝ), Real.log x * gammaPdf a b x = digamma a - Real.log b := by
    have : gammaMoments ![-b, a] 1 = digamma a - Real.log b := by simp [gammaMoments]
    rw [← this, ← C22_gamma_log_mean ![-b, a] h0 h1]
    exact setIntegral_congr_fun measurableSet_Ioi fun x hx => congrArg _ (gammaPdf_node a b x ha hb hx)
  have i1 : IntegrableOn (fun x => gammaPdf a b x) (Ioi 0) := integrableOn_of_ne (by rw [n1]; exact one_ne_zero)
  have i2 : IntegrableOn (fun x => x * gammaPdf a b x) (Ioi 0) := integrableOn_of_ne (by rw [n2]; positivity)
  have i3 := integrable_log_gammaPdf a b ha hb
  have i13 : IntegrableOn (fun x => (a * Real.log b - gammaln a) * gammaPdf a b x
      + (a - 1) * (Real.log x * gammaPdf a b x)) (Ioi 0) := (i1.const_mul _).add (i3.const_mul _)
  have e : ∀ x ∈ Ioi (0 : ℝ), gammaPdf a b x * Real.log (gammaPdf a b x)
      = (a * Real.log b - gammaln a) * gammaPdf a b x + (a - 1) * (Real.log x * gammaPdf a b x)
        + -b * (x * gammaPdf a b x) := by
    intro x hx
    rw [← C72_gamma_logpdf a b x ha hb hx, randGammaLogpdf]
    ring
  rw [setIntegral_congr_fun measurableSet_Ioi e, integral_add i13 (i2.const_mul _),
    integral_add (i1.const_mul _) (i3.const_mul _), integral_const_mul, integral_const_mul, integral_const_mul, n1, n2, n3,
    randGammaEntropy]
  field_simp
  ring

/-- **C72** "If you want to get the gradient, just let each parameter be a gradient of that term."
The entropies and log-densities of the gradients of the terms are the gradients of the entropies and log-densities; the
dimensionality is a constant, so that its gradient is zero (`d' = 0`). -/
theorem C72_gradients {l' d' t : ℝ} {logdet D : ℝ → ℝ} (h1 : HasDerivAt logdet l' t) (h2 : HasDerivAt D d' t)
    {A B C E F : ℝ → ℝ} {a' b' c' e' f' : ℝ} (hA : HasDerivAt A a' t) (hB : HasDerivAt B b' t) (hC : HasDerivAt C c' t)
    (hE : HasDerivAt E e' t) (hF : HasDerivAt F f' t) :
    HasDerivAt (fun t => randGaussianEntropy (logdet t) (D t)) (randGaussianEntropy l' d') t ∧
    (∀ n, HasDerivAt (fun t => randGaussianLogpdf (A t) (B t) (C t) (E t) n) (randGaussianLogpdf a' b' c' e' 0) t) ∧
    HasDerivAt (fun t => randGammaEntropy (A t) (B t) (C t) (E t) (F t)) (randGammaEntropy a' b' c' e' f') t ∧
    HasDerivAt (fun t => randGammaLogpdf (A t) (B t) (C t) (E t) (F t)) (randGammaLogpdf a' b' c' e' f') t := by
  refine ⟨?_, fun n => ?_, ?_, ?_⟩
  · unfold randGaussianEntropy
    exact ((h1.const_mul _).add (h2.const_mul _)).add ((h2.const_mul _).mul_const _)
  · unfold randGaussianLogpdf
    rw [Nat.cast_zero, mul_zero, zero_mul]
    exact ((((hA.const_mul _).add hB).sub (hC.const_mul _)).add (hE.const_mul _)).sub (hasDerivAt_const t _)
  · unfold randGammaEntropy
    exact (((hA.sub hB).add hC).add hE).sub hF
  · unfold randGammaLogpdf
    exact (((hE.sub hF).add hC).sub hB).sub hA

/-- **C72** `logodds_to_probability` gives the probability with the given log odds. -/
theorem C72_logodds (x p : ℝ) : logoddsToProbability x = p ↔ (0 < p ∧ p < 1) ∧ Real.log (p / (1 - p)) = x := by
  have hp := Real.exp_pos (-x)
  constructor
  · rintro rfl
    have h1 : 1 - logoddsToProbability x = Real.exp (-x) / (1 + Real.exp (-x)) := by
      unfold logoddsToProbability; field_simp; ring
    refine ⟨⟨by unfold logoddsToProbability; positivity, ?_⟩, ?_⟩
    · have : 0 < 1 - logoddsToProbability x := by rw [h1]; positivity
      linarith
    · rw [h1, logoddsToProbability, div_div_div_cancel_right₀ (by positivity), Real.log_div one_ne_zero hp.ne', Real.log_one,
        Real.log_exp]
      ring
  · rintro ⟨⟨h0, h1⟩, rfl⟩
    have h2 : 0 < 1 - p := by linarith
    rw [logoddsToProbability, Real.exp_neg, Real.exp_log (by positivity)]
    field_simp
    ring

example : randGaussianEntropy (Real.log (Matrix.diagonal ![2, 3] : Matrix (Fin 2) (Fin 2) ℝ).det) 2
    = -∫ x, gaussianPdf ![1, 5] (Matrix.diagonal ![2, 3]) x * Real.log (gaussianPdf ![1, 5] (Matrix.diagonal ![2, 3]) x) := by
  have := C72_gaussian_entropy ![1, 5] (Matrix.diagonal ![2, 3]) (Matrix.PosDef.diagonal fun i => by fin_cases i <;> norm_num)
  rw [this]; norm_num

example : -∫ x in Ioi (0 : ℝ), gammaPdf 1 2 x * Real.log (gammaPdf 1 2 x) = 1 - Real.log 2 := by
  rw [C72_gamma_entropy 1 2 one_pos two_pos, randGammaEntropy, gammaln, Real.Gamma_one, Real.log_one]
  ring

example : logoddsToProbability (Real.log 3) = 3 / 4 :=
  (C72_logodds _ _).2 ⟨by norm_num, by norm_num⟩

end Verif
