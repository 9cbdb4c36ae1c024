import Verif.Props.Moments
import Mathlib.Analysis.SpecialFunctions.Complex.Analytic
import Mathlib.Analysis.SpecialFunctions.Gamma.BohrMollerup
import Mathlib.Analysis.Complex.CauchyIntegral
import Mathlib.Analysis.Convex.Deriv

/-!
# The digamma function is differentiable on the positive numbers and its derivative is positive
-/

namespace Verif
open Filter Topology

/-- `special.polygamma(1, ·)` -/
noncomputable def trigamma (x : ℝ) : ℝ := deriv digamma x

theorem analyticAt_Gamma (x : ℝ) (hx : 0 < x) : AnalyticAt ℝ Real.Gamma x := by
  have hc : AnalyticAt ℂ Complex.Gamma (x : ℂ) := by
    have ho : IsOpen {z : ℂ | 0 < z.re} := isOpen_lt continuous_const Complex.continuous_re
    have hd : DifferentiableOn ℂ Complex.Gamma {z : ℂ | 0 < z.re} := by
      intro z hz
      refine (Complex.differentiableAt_Gamma z fun m e => ?_).differentiableWithinAt
      have h1 : z.re = -(m : ℝ) := by rw [e]; simp
      have h2 : (0 : ℝ) ≤ m := Nat.cast_nonneg m
      have h3 : 0 < z.re := hz
      linarith
    exact hd.analyticAt (ho.mem_nhds (by simpa using hx))
  exact hc.re_ofReal

theorem analyticAt_gammaln (x : ℝ) (hx : 0 < x) : AnalyticAt ℝ gammaln x :=
  (analyticAt_Gamma x hx).log (Real.Gamma_pos_of_pos hx)

theorem hasDerivAt_digamma (x : ℝ) (hx : 0 < x) : HasDerivAt digamma (trigamma x) x :=
  (analyticAt_gammaln x hx).deriv.differentiableAt.hasDerivAt

theorem digamma_add_one (x : ℝ) (hx : 0 < x) : digamma (x + 1) = digamma x + 1 / x := by
  have e : (fun y => gammaln (y + 1)) =ᶠ[𝓝 x] fun y => gammaln y + Real.log y := by
    filter_upwards [lt_mem_nhds hx] with y hy
    rw [gammaln, Real.Gamma_add_one hy.ne', Real.log_mul hy.ne' (Real.Gamma_pos_of_pos hy).ne', gammaln, add_comm]
  have h1 : HasDerivAt (fun y => gammaln (y + 1)) (digamma (x + 1)) x :=
    (hasDerivAt_gammaln (x + 1) (by linarith)).comp_add_const x 1
  have h2 := (hasDerivAt_gammaln x hx).add (Real.hasDerivAt_log hx.ne')
  have := h1.unique (h2.congr_of_eventuallyEq e)
  rw [this, one_div]

theorem trigamma_add_one (x : ℝ) (hx : 0 < x) : trigamma (x + 1) = trigamma x - 1 / x ^ 2 := by
  have e : (fun y => digamma (y + 1)) =ᶠ[𝓝 x] fun y => digamma y + y⁻¹ := by
    filter_upwards [lt_mem_nhds hx] with y hy
    rw [digamma_add_one y hy, one_div]
  have h1 : HasDerivAt (fun y => digamma (y + 1)) (trigamma (x + 1)) x :=
    (hasDerivAt_digamma (x + 1) (by linarith)).comp_add_const x 1
  have h2 := (hasDerivAt_digamma x hx).add (hasDerivAt_inv hx.ne')
  have := h1.unique (h2.congr_of_eventuallyEq e)
  rw [this, one_div]
  ring

theorem digamma_monotone {x y : ℝ} (hx : 0 < x) (hxy : x ≤ y) : digamma x ≤ digamma y := by
  have hc : ConvexOn ℝ (Set.Ioi 0) gammaln := Real.convexOn_log_Gamma
  have hd : DifferentiableOn ℝ gammaln (Set.Ioi 0) := fun z hz =>
    (hasDerivAt_gammaln z hz).differentiableAt.differentiableWithinAt
  rcases hxy.eq_or_lt with rfl | h
  · exact le_refl _
  · have h1 := hc.le_slope_of_hasDerivAt hx (hx.trans h) h (hasDerivAt_gammaln x hx)
    have h2 := hc.slope_le_of_hasDerivAt hx (hx.trans h) h (hasDerivAt_gammaln y (hx.trans h))
    exact h1.trans h2

theorem trigamma_nonneg (x : ℝ) (hx : 0 < x) : 0 ≤ trigamma x := by
  have h := (hasDerivAt_digamma x hx).tendsto_slope
  have hr := h.mono_left (nhdsWithin_mono x (s := Set.Ioi x) (fun y hy => (ne_of_gt hy : y ≠ x)))
  refine ge_of_tendsto hr ?_
  filter_upwards [self_mem_nhdsWithin] with y hy
  rw [slope_def_field]
  exact div_nonneg (sub_nonneg.2 (digamma_monotone hx (le_of_lt hy))) (sub_nonneg.2 (le_of_lt hy))

theorem trigamma_pos (x : ℝ) (hx : 0 < x) : 0 < trigamma x := by
  have h := trigamma_nonneg (x + 1) (by linarith)
  rw [trigamma_add_one x hx] at h
  have : 0 < 1 / x ^ 2 := by positivity
  linarith

end Verif
