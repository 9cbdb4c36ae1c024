import Verif.Props.LogPdf
import Verif.Model.GaussianDist
import Mathlib.Analysis.Matrix.PosDef
import Mathlib.Analysis.Real.Pi.Bounds
import Mathlib.Algebra.Order.Star.Real

/-!
# C20 and C21 for the Gaussian families and Wishart
-/

namespace Verif
open Spec

section
variable {ι : Type*} [Fintype ι] [DecidableEq ι]

/-- Gaussian, message to the joint mean and precision -/
theorem C20_gaussian (u : GIx ι → ℝ) (f : ℝ) :
    IsCoefficient (fun v => logpdf u (gaussianPhi v) (gaussianCgfP v) f) (gaussianMsg u) := by
  refine ⟨f, fun v => ?_⟩
  simp only [logpdf_eq, dotProduct, Fintype.sum_sum_type, gaussianPhi, gaussianCgfP, gaussianMsg, mkG, mkGW, Sum.elim_inl,
    Sum.elim_inr, Finset.univ_unique, Finset.sum_singleton, g0, g1, gw0, gw1, gw2, gw3, Matrix.smul_apply, smul_eq_mul]
  rw [Finset.sum_congr rfl fun i _ => mul_comm (v (Sum.inl (Sum.inl i))) _,
    Finset.sum_congr rfl fun (p : ι × ι) _ => show -0.5 * v (Sum.inr (Sum.inl (p.1, p.2))) * u (Sum.inr p)
      = -0.5 * u (Sum.inr (p.1, p.2)) * v (Sum.inr (Sum.inl p)) by ring]
  have e : (default : Unit) = () := rfl
  rw [e]
  ring

/-- GaussianARD, message to the joint mean and precision per element -/
theorem C20_gaussianARD (u : GIx ι → ℝ) (f : ℝ) :
    IsCoefficient (fun v => logpdf u (ardPhi v) (ardCgfP v) f) (ardMsg u) := by
  refine ⟨f, fun v => ?_⟩
  simp only [logpdf_eq, dotProduct, Fintype.sum_sum_type, Fintype.sum_prod_type, ardPhi, ardCgfP, ardMsg, mkG,
    Sum.elim_inl, Sum.elim_inr, g0, g1, Fin.sum_univ_four, Matrix.diagonal_apply, ite_mul, zero_mul,
    Finset.sum_ite_eq, Finset.mem_univ, if_true, Finset.sum_add_distrib, Finset.mul_sum]
  simp only [Matrix.cons_val]
  rw [Finset.sum_congr rfl fun i _ => mul_comm (v (i, 0)) _,
    Finset.sum_congr rfl fun i _ => show -0.5 * v (i, 2) * u (Sum.inr (i, i)) = -0.5 * u (Sum.inr (i, i)) * v (i, 2) by ring]
  ring

/-- Gaussian-gamma, message to the joint mean and precision -/
theorem C20_gaussianGamma_mean (u : GGIx ι → ℝ) (ua ub : Fin 2 → ℝ) (f : ℝ) :
    IsCoefficient (fun v => logpdf u (ggPhi v ua ub) (ggCgfP v ua ub) f) (ggMsg0 u) := by
  refine ⟨-ub 0 * gg2 u + ua 0 * gg3 u + ua 0 * ub 1 - ua 1 + f, fun v => ?_⟩
  simp only [logpdf_eq, dotProduct, Fintype.sum_sum_type, ggPhi, ggCgfP, ggMsg0, mkGG, mkGW, Sum.elim_inl,
    Sum.elim_inr, Finset.univ_unique, Finset.sum_singleton, gg0, gg1, gg2, gg3, gw0, gw1, gw2, gw3, Matrix.smul_apply,
    smul_eq_mul]
  rw [Finset.sum_congr rfl fun i _ => mul_comm (v (Sum.inl (Sum.inl i))) _,
    Finset.sum_congr rfl fun (p : ι × ι) _ => show -0.5 * v (Sum.inr (Sum.inl (p.1, p.2))) * u (Sum.inl (Sum.inr p))
      = -0.5 * u (Sum.inl (Sum.inr (p.1, p.2))) * v (Sum.inr (Sum.inl p)) by ring]
  have e : (default : Unit) = () := rfl
  rw [e]
  ring

/-- Gaussian-gamma, message to the shape -/
theorem C20_gaussianGamma_shape (u : GGIx ι → ℝ) (v : GWIx ι → ℝ) (ub : Fin 2 → ℝ) (f : ℝ) :
    IsCoefficient (fun ua => logpdf u (ggPhi v ua ub) (ggCgfP v ua ub) f) (ggMsg1 u ub) := by
  refine ⟨logpdf u (ggPhi v 0 ub) (ggCgfP v 0 ub) f, fun ua => ?_⟩
  simp only [logpdf_eq, dotProduct, Fintype.sum_sum_type, ggPhi, ggCgfP, ggMsg1, mkGG, Sum.elim_inl,
    Sum.elim_inr, Finset.univ_unique, Finset.sum_singleton, gg3, Fin.sum_univ_two, Matrix.cons_val_zero,
    Matrix.cons_val_one, Pi.zero_apply, Matrix.cons_val_fin_one]
  have e : (default : Unit) = () := rfl
  rw [e]
  ring

/-- Gaussian-gamma, message to the rate -/
theorem C20_gaussianGamma_rate (u : GGIx ι → ℝ) (v : GWIx ι → ℝ) (ua : Fin 2 → ℝ) (f : ℝ) :
    IsCoefficient (fun ub => logpdf u (ggPhi v ua ub) (ggCgfP v ua ub) f) (ggMsg2 u ua) := by
  refine ⟨logpdf u (ggPhi v ua 0) (ggCgfP v ua 0) f, fun ub => ?_⟩
  simp only [logpdf_eq, dotProduct, Fintype.sum_sum_type, ggPhi, ggCgfP, ggMsg2, mkGG, Sum.elim_inl,
    Sum.elim_inr, Finset.univ_unique, Finset.sum_singleton, gg2, Fin.sum_univ_two, Matrix.cons_val_zero,
    Matrix.cons_val_one, Pi.zero_apply, Matrix.cons_val_fin_one]
  have e : (default : Unit) = () := rfl
  rw [e]
  ring

/-- Wishart, message to the inverse scale matrix -/
theorem C20_wishart_scale (u : WIx ι → ℝ) (un : Fin 2 → ℝ) (f : ℝ) :
    IsCoefficient (fun uV => logpdf u (wishartPhi un uV) (wishartCgfP un uV) f) (wishartMsgV u un) := by
  refine ⟨0.5 * un 0 * w1 u - 0.5 * (Fintype.card ι : ℝ) * un 0 * Real.log 2 - un 1 + f, fun v => ?_⟩
  simp only [logpdf_eq, dotProduct, Fintype.sum_sum_type, wishartPhi, wishartCgfP, wishartMsgV, mkW, Sum.elim_inl,
    Sum.elim_inr, Finset.univ_unique, Finset.sum_singleton, w0, w1, Matrix.smul_apply, smul_eq_mul]
  rw [Finset.sum_congr rfl fun (p : ι × ι) _ => show -0.5 * v (Sum.inl (p.1, p.2)) * u (Sum.inl p)
      = -0.5 * u (Sum.inl (p.1, p.2)) * v (Sum.inl p) by ring]
  have e : (default : Unit) = () := rfl
  rw [e]
  ring

/-! ### C21 -/

/-- The pairing of parameters and moments of a Gaussian with a fixed value. -/
theorem mkG_dot (a : ι → ℝ) (A : Matrix ι ι ℝ) (x : ι → ℝ) :
    mkG a A ⬝ᵥ gaussianFixed x = a ⬝ᵥ x + x ⬝ᵥ A.mulVec x := by
  simp only [dotProduct, Fintype.sum_sum_type, Fintype.sum_prod_type, gaussianFixed, mkG, Sum.elim_inl, Sum.elim_inr,
    Matrix.vecMulVec_apply, Matrix.mulVec, Finset.mul_sum]
  congr 1
  refine Finset.sum_congr rfl fun i _ => Finset.sum_congr rfl fun j _ => ?_
  ring

/-- The moments of the joint node of a fixed mean and a fixed precision matrix. -/
theorem fixedParent (mu : ι → ℝ) (L : Matrix ι ι ℝ) :
    wrapGW (toGaussianGamma (gaussianFixed mu)) (wishartFixed L)
      = mkGW (L.mulVec mu) (mu ⬝ᵥ L.mulVec mu) L (Real.log L.det) := by
  have e1 : ∑ i, ∑ j, L i j * (mu i * mu j) = mu ⬝ᵥ L.mulVec mu := by
    simp only [dotProduct, Matrix.mulVec, Finset.mul_sum]
    refine Finset.sum_congr rfl fun i _ => Finset.sum_congr rfl fun j _ => ?_
    ring
  show mkGW (L.mulVec mu) (∑ i, ∑ j, L i j * (mu i * mu j)) ((1 : ℝ) • L) (Real.log L.det + (Fintype.card ι : ℝ) * 0) = _
  rw [e1, one_smul, mul_zero, add_zero]

theorem posDef_transpose {L : Matrix ι ι ℝ} (hL : L.PosDef) : L.transpose = L := by
  have := hL.isHermitian
  rwa [Matrix.IsHermitian, Matrix.conjTranspose_eq_transpose_of_trivial] at this

theorem quad_sub (L : Matrix ι ι ℝ) (hs : L.transpose = L) (x mu : ι → ℝ) :
    (x - mu) ⬝ᵥ L.mulVec (x - mu) = x ⬝ᵥ L.mulVec x - 2 * (L.mulVec mu ⬝ᵥ x) + mu ⬝ᵥ L.mulVec mu := by
  have hc : x ⬝ᵥ L.mulVec mu = mu ⬝ᵥ L.mulVec x := by
    rw [Matrix.dotProduct_mulVec, ← Matrix.mulVec_transpose, hs, dotProduct_comm]
  rw [Matrix.mulVec_sub, sub_dotProduct, dotProduct_sub, dotProduct_sub, dotProduct_comm (L.mulVec mu) x, hc]
  ring

/-- Gaussian with one variable axis, a fixed mean and a fixed precision matrix -/
theorem C21_gaussian (mu : ι → ℝ) (L : Matrix ι ι ℝ) (hL : L.PosDef) (x : ι → ℝ) :
    let v := wrapGW (toGaussianGamma (gaussianFixed mu)) (wishartFixed L)
    logpdf (gaussianFixed x) (gaussianPhi v) (gaussianCgfP v) (gaussianF (Fintype.card ι)) = Real.log (gaussianPdf mu L x) := by
  intro v
  have hd := hL.det_pos
  have h2 : (0 : ℝ) < 2 * Real.pi := by positivity
  rw [gaussianPdf, Real.log_mul (by positivity) (by positivity), Real.log_mul (by positivity) (by positivity),
    Real.log_rpow h2, Real.log_rpow hd, Real.log_exp, logpdf_eq, quad_sub L (posDef_transpose hL)]
  simp only [v]
  rw [fixedParent, gaussianPhi, gaussianCgfP, gaussianF, mkG_dot]
  show (L.mulVec mu ⬝ᵥ x + x ⬝ᵥ ((-0.5 : ℝ) • L).mulVec x) + (-0.5 * (mu ⬝ᵥ L.mulVec mu) + 0.5 * Real.log L.det) + _ = _
  rw [Matrix.smul_mulVec, dotProduct_smul, smul_eq_mul]
  ring

/-- With two variable axes `k` is only the length of the last one, and the log-density is too large: here for a `2 × 1`
matrix with standard normal elements. -/
theorem C21_gaussian_two_axes_refuted :
    let v := wrapGW (toGaussianGamma (gaussianFixed (0 : Fin 2 × Fin 1 → ℝ))) (wishartFixed 1)
    logpdf (gaussianFixed 0) (gaussianPhi v) (gaussianCgfP v) (gaussianF 1) ≠ Real.log (gaussianPdf 0 1 (0 : Fin 2 × Fin 1 → ℝ)) := by
  intro v h
  have h' := C21_gaussian (0 : Fin 2 × Fin 1 → ℝ) 1 Matrix.PosDef.one 0
  rw [← h', logpdf_eq, logpdf_eq] at h
  have h2 : gaussianF 1 = gaussianF (Fintype.card (Fin 2 × Fin 1)) := add_left_cancel h
  have hl : 0 < Real.log (2 * Real.pi) := Real.log_pos (by linarith [Real.pi_gt_three])
  simp only [gaussianF, Fintype.card_prod, Fintype.card_fin] at h2
  push_cast at h2
  linarith

/-- GaussianARD with fixed means and precisions -/
theorem C21_gaussianARD (mu alpha x : ι → ℝ) (ha : ∀ i, 0 < alpha i) :
    logpdf (gaussianFixed x) (ardPhi (ardFixedParent mu alpha)) (ardCgfP (ardFixedParent mu alpha)) (ardF (Fintype.card ι))
      = Real.log (gaussianARDPdf mu alpha x) := by
  have hpi : (0 : ℝ) < 2 * Real.pi := by positivity
  have hq : ∀ i, 0 < Real.sqrt (alpha i / (2 * Real.pi)) := fun i => Real.sqrt_pos.2 (div_pos (ha i) hpi)
  rw [gaussianARDPdf, Real.log_prod fun i _ => (mul_pos (hq i) (Real.exp_pos _)).ne', logpdf_eq, ardPhi, ardCgfP, mkG_dot,
    ardF]
  simp only [ardFixedParent, Matrix.cons_val, dotProduct, Matrix.mulVec_diagonal]
  rw [show -(Fintype.card ι : ℝ) / 2 * Real.log (2 * Real.pi) = ∑ _i : ι, -(1 / 2) * Real.log (2 * Real.pi) by
    rw [Finset.sum_const, Finset.card_univ, nsmul_eq_mul]; ring]
  rw [Finset.mul_sum, Finset.mul_sum, ← Finset.sum_add_distrib, ← Finset.sum_add_distrib, ← Finset.sum_add_distrib,
    ← Finset.sum_add_distrib]
  refine Finset.sum_congr rfl fun i _ => ?_
  rw [Real.log_mul (hq i).ne' (Real.exp_pos _).ne', Real.log_exp, Real.log_sqrt (div_pos (ha i) hpi).le,
    Real.log_div (ha i).ne' hpi.ne']
  ring

theorem mkGG_dot (a : ι → ℝ) (A : Matrix ι ι ℝ) (c d : ℝ) (x : ι → ℝ) (tau : ℝ) :
    mkGG a A c d ⬝ᵥ ggFixed x tau = tau * (a ⬝ᵥ x) + tau * (x ⬝ᵥ A.mulVec x) + (c * tau + d * Real.log tau) := by
  simp only [dotProduct, Fintype.sum_sum_type, Fintype.sum_prod_type, ggFixed, mkGG, Sum.elim_inl, Sum.elim_inr,
    Matrix.smul_apply, Matrix.vecMulVec_apply, Matrix.mulVec, Finset.mul_sum, Finset.univ_unique, Finset.sum_singleton,
    Pi.smul_apply, smul_eq_mul]
  congr 2
  · refine Finset.sum_congr rfl fun i _ => ?_
    ring
  · refine Finset.sum_congr rfl fun i _ => Finset.sum_congr rfl fun j _ => ?_
    ring

/-- Gaussian-gamma with fixed parents -/
theorem C21_gaussianGamma (mu : ι → ℝ) (L : Matrix ι ι ℝ) (hL : L.PosDef) (a b : ℝ) (ha : 0 < a) (hb : 0 < b)
    (x : ι → ℝ) (tau : ℝ) (ht : 0 < tau) :
    let v := wrapGW (toGaussianGamma (gaussianFixed mu)) (wishartFixed L)
    logpdf (ggFixed x tau) (ggPhi v (gammaPriorFixed a) (gammaFixed b)) (ggCgfP v (gammaPriorFixed a) (gammaFixed b))
      (ggF x tau) = Real.log (gaussianGammaPdf mu L a b x tau) := by
  intro v
  have hd := hL.det_pos
  have hT : 0 < (tau • L).det := by
    rw [Matrix.det_smul]
    positivity
  have h2 : (0 : ℝ) < 2 * Real.pi := by positivity
  have hG := Real.Gamma_pos_of_pos ha
  have hp1 : gaussianPdf mu (tau • L) x ≠ 0 := by
    unfold gaussianPdf
    positivity
  have hp2 : gammaPdf a b tau ≠ 0 := by
    unfold gammaPdf
    positivity
  have hld : Real.log (tau • L).det = (Fintype.card ι : ℝ) * Real.log tau + Real.log L.det := by
    rw [Matrix.det_smul, Real.log_mul (by positivity) hd.ne', Real.log_pow]
  rw [gaussianGammaPdf, Real.log_mul hp1 hp2, ← C21_gamma a b tau ha hb ht, gaussianPdf,
    Real.log_mul (by positivity) (by positivity), Real.log_mul (by positivity) (by positivity),
    Real.log_rpow h2, Real.log_rpow hT, Real.log_exp, hld, Matrix.smul_mulVec, dotProduct_smul, smul_eq_mul,
    quad_sub L (posDef_transpose hL)]
  simp only [v]
  rw [fixedParent, logpdf_eq, ggPhi, ggCgfP, ggF, mkGG_dot]
  show tau * (L.mulVec mu ⬝ᵥ x) + tau * (x ⬝ᵥ ((-0.5 : ℝ) • L).mulVec x)
    + ((-0.5 * (mu ⬝ᵥ L.mulVec mu) - b) * tau + a * Real.log tau)
    + (0.5 * Real.log L.det + a * Real.log b - gammaln a) + _ = _
  rw [Matrix.smul_mulVec, dotProduct_smul, smul_eq_mul]
  simp only [logpdf_eq, dotProduct, Fin.sum_univ_two, gammaFixed, gammaPriorFixed, gammaPhi, gammaCgfP, gammaF,
    Matrix.cons_val_zero, Matrix.cons_val_one, Matrix.cons_val_fin_one]
  ring

/-- Wishart with fixed degrees of freedom and inverse scale matrix -/
theorem C21_wishart (n : ℝ) (hn : (Fintype.card ι : ℝ) - 1 < n) (V L : Matrix ι ι ℝ) (hV : V.PosDef) (hL : L.PosDef) :
    logpdf (wishartFixed L) (wishartPhi (wishartPriorFixed (Fintype.card ι) n) (wishartFixed V))
      (wishartCgfP (wishartPriorFixed (Fintype.card ι) n) (wishartFixed V)) (wishartF L) = Real.log (wishartPdf n V L) := by
  have hdV := hV.det_pos
  have hdL := hL.det_pos
  have hs : L.transpose = L := by
    have := hL.isHermitian
    rwa [Matrix.IsHermitian, Matrix.conjTranspose_eq_transpose_of_trivial] at this
  have hG : ∀ j ∈ Finset.range (Fintype.card ι), 0 < Real.Gamma (n / 2 - (j : ℕ) / 2) := by
    intro j hj
    apply Real.Gamma_pos_of_pos
    have h1 : j + 1 ≤ Fintype.card ι := Finset.mem_range.1 hj
    have h2 : (j : ℝ) + 1 ≤ Fintype.card ι := by exact_mod_cast h1
    linarith
  have hP : 0 < ∏ j ∈ Finset.range (Fintype.card ι), Real.Gamma (n / 2 - (j : ℕ) / 2) := Finset.prod_pos hG
  have hpi := Real.pi_pos
  have hm : 0 < multigamma (n / 2) (Fintype.card ι) := by
    unfold multigamma
    positivity
  have hlm : Real.log (multigamma (n / 2) (Fintype.card ι)) = multigammaln (0.5 * n) (Fintype.card ι) := by
    rw [multigamma, Real.log_mul (by positivity) hP.ne', Real.log_rpow hpi, Real.log_prod fun j hj => (hG j hj).ne',
      multigammaln]
    congr 1
    refine Finset.sum_congr rfl fun j _ => ?_
    rw [gammaln]
    congr 2
    ring
  have htr : (V * L).trace = ∑ i, ∑ j, V i j * L i j := by
    rw [Matrix.trace]
    refine Finset.sum_congr rfl fun i _ => ?_
    rw [Matrix.diag_apply, Matrix.mul_apply]
    refine Finset.sum_congr rfl fun j _ => ?_
    rw [← congrFun (congrFun hs i) j, Matrix.transpose_apply]
  simp only [wishartPdf]
  rw [Real.log_div (by positivity) (by positivity), Real.log_mul (by positivity) (by positivity),
    Real.log_mul (by positivity) (by positivity), Real.log_mul (by positivity) hm.ne', hlm, Real.log_exp, Real.log_rpow hdV,
    Real.log_rpow hdL, Real.log_rpow (by norm_num), htr]
  simp only [logpdf_eq, dotProduct, Fintype.sum_sum_type, Fintype.sum_prod_type, wishartPhi, wishartCgfP, wishartF,
    wishartPriorFixed, wishartFixed, mkW, w0, w1, Sum.elim_inl, Sum.elim_inr, Finset.univ_unique, Finset.sum_singleton,
    Matrix.cons_val_zero, Matrix.cons_val_one, Matrix.cons_val_fin_one, Matrix.smul_apply, smul_eq_mul, mul_assoc]
  simp only [← Finset.mul_sum]
  ring

end

/-- The hypotheses can be met: a two-dimensional Gaussian with dependent elements -/
example : (!![2, 1; 1, 2] : Matrix (Fin 2) (Fin 2) ℝ).PosDef := by
  refine Matrix.PosDef.of_dotProduct_mulVec_pos ?_ fun x hx => ?_
  · ext i j
    fin_cases i <;> fin_cases j <;> simp
  · have h : x 0 ≠ 0 ∨ x 1 ≠ 0 := by
      by_contra hc
      push Not at hc
      apply hx
      funext i
      fin_cases i
      · exact hc.1
      · exact hc.2
    simp only [star_trivial, dotProduct, Matrix.mulVec, Fin.sum_univ_two, Matrix.of_apply, Matrix.cons_val_zero,
      Matrix.cons_val_one, Matrix.cons_val_fin_one]
    rcases h with h | h <;> nlinarith [sq_nonneg (x 0 + x 1), sq_pos_of_ne_zero h, sq_nonneg (x 0), sq_nonneg (x 1)]

end Verif
