import Verif.Props.Moments
import Mathlib.Analysis.SpecialFunctions.Gamma.BohrMollerup
import Mathlib.Analysis.Convex.Deriv
import Mathlib.Analysis.Calculus.Darboux
import Mathlib.Analysis.PSeries

/-!
# The digamma function on the positive numbers

It is strictly increasing and takes every real value exactly once; the logarithm of the gamma function lies strictly
above its tangents.
-/

namespace Verif
open Set

theorem gammaln_add_one (x : ℝ) (hx : 0 < x) : gammaln (x + 1) = gammaln x + Real.log x := by
  unfold gammaln
  rw [Real.Gamma_add_one hx.ne', Real.log_mul hx.ne' (Real.Gamma_pos_of_pos hx).ne', add_comm]

theorem digamma_add_one (x : ℝ) (hx : 0 < x) : digamma (x + 1) = digamma x + 1 / x := by
  have h1 : HasDerivAt (fun t => gammaln (t + 1)) (digamma (x + 1)) x :=
    (hasDerivAt_gammaln (x + 1) (by linarith)).comp_add_const x 1
  have h2 : HasDerivAt (fun t => gammaln t + Real.log t) (digamma x + 1 / x) x := by
    rw [one_div]
    exact (hasDerivAt_gammaln x hx).fun_add (Real.hasDerivAt_log hx.ne')
  have h3 : (fun t => gammaln (t + 1)) =ᶠ[nhds x] fun t => gammaln t + Real.log t := by
    filter_upwards [lt_mem_nhds hx] with t ht using gammaln_add_one t ht
  exact h1.unique (h2.congr_of_eventuallyEq h3)

theorem gammaln_tangent_le (a b : ℝ) (ha : 0 < a) (hb : 0 < b) :
    gammaln a + digamma a * (b - a) ≤ gammaln b := by
  have hc : ConvexOn ℝ (Ioi 0) gammaln := Real.convexOn_log_Gamma
  rcases lt_trichotomy a b with h | h | h
  · have := hc.le_slope_of_hasDerivAt ha hb h (hasDerivAt_gammaln a ha)
    rw [slope_def_field, le_div_iff₀ (by linarith)] at this
    linarith
  · subst h; simp
  · have := hc.slope_le_of_hasDerivAt hb ha h (hasDerivAt_gammaln a ha)
    rw [slope_def_field, div_le_iff₀ (by linarith)] at this
    linarith

/-- The logarithm of the gamma function lies strictly above its tangents. -/
theorem gammaln_tangent_lt (a b : ℝ) (ha : 0 < a) (hb : 0 < b) (hab : a ≠ b) :
    gammaln a + digamma a * (b - a) < gammaln b := by
  have h1 := gammaln_tangent_le (a + 1) (b + 1) (by linarith) (by linarith)
  have h2 : Real.log (b / a) < b / a - 1 :=
    Real.log_lt_sub_one_of_pos (div_pos hb ha) (by rw [Ne, div_eq_one_iff_eq ha.ne']; exact fun h => hab h.symm)
  rw [Real.log_div hb.ne' ha.ne'] at h2
  rw [gammaln_add_one a ha, gammaln_add_one b hb, digamma_add_one a ha] at h1
  have h3 : 1 / a * (b - a) = b / a - 1 := by field_simp
  have h4 : (digamma a + 1 / a) * (b + 1 - (a + 1)) = digamma a * (b - a) + 1 / a * (b - a) := by ring
  linarith

theorem digamma_strictMonoOn : StrictMonoOn digamma (Ioi 0) := by
  intro a ha b hb hab
  have h1 := gammaln_tangent_lt a b ha hb hab.ne
  have h2 := gammaln_tangent_lt b a hb ha hab.ne'
  have h3 : 0 < (digamma b - digamma a) * (b - a) := by nlinarith
  have := (pos_iff_pos_of_mul_pos h3).2 (by linarith)
  linarith

theorem digamma_nat (n : ℕ) : digamma (n + 1) = digamma 1 + ∑ i ∈ Finset.range n, 1 / ((i : ℝ) + 1) := by
  induction n with
  | zero => simp
  | succ n ih =>
    have := digamma_add_one ((n : ℝ) + 1) (by positivity)
    push_cast
    rw [this, ih, Finset.sum_range_succ]
    ring

/-- The digamma function takes every value on the positive numbers. -/
theorem digamma_surj (y : ℝ) : ∃ x, 0 < x ∧ digamma x = y := by
  obtain ⟨n, hn⟩ : ∃ n : ℕ, y - digamma 1 < ∑ i ∈ Finset.range n, 1 / ((i : ℝ) + 1) :=
    ((Real.tendsto_sum_range_one_div_nat_succ_atTop).eventually_gt_atTop (y - digamma 1)).exists
  have hb : y < digamma (n + 1) := by rw [digamma_nat]; linarith
  obtain ⟨a, ha0, ha1, hay⟩ : ∃ a : ℝ, 0 < a ∧ a ≤ 1 ∧ digamma a < y := by
    refine ⟨1 / (|digamma 2 - y| + 1), by positivity, ?_, ?_⟩
    · rw [div_le_one (by positivity)]
      linarith [abs_nonneg (digamma 2 - y)]
    · set a := 1 / (|digamma 2 - y| + 1) with ha
      have h0 : 0 < a := by positivity
      have h1 : a ≤ 1 := by
        rw [ha, div_le_one (by positivity)]
        linarith [abs_nonneg (digamma 2 - y)]
      have h2 := digamma_add_one a h0
      have h3 : digamma (a + 1) ≤ digamma 2 :=
        digamma_strictMonoOn.monotoneOn (by simp only [mem_Ioi]; linarith) (by simp) (by linarith)
      have h4 : 1 / a = |digamma 2 - y| + 1 := by rw [ha, one_div_one_div]
      have := le_abs_self (digamma 2 - y)
      linarith
  have hab : a ≤ (n : ℝ) + 1 := by
    have : (0 : ℝ) ≤ n := Nat.cast_nonneg n
    linarith
  obtain ⟨c, hc, hcy⟩ := exists_hasDerivWithinAt_eq_of_gt_of_lt (f := gammaln) (f' := digamma) hab
    (fun x hx => (hasDerivAt_gammaln x (lt_of_lt_of_le ha0 hx.1)).hasDerivWithinAt) hay hb
  exact ⟨c, lt_trans ha0 hc.1, hcy⟩

end Verif
