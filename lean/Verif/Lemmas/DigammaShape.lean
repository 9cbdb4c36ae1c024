import Verif.Lemmas.Digamma
import Verif.Lemmas.Trigamma
import Mathlib.NumberTheory.Harmonic.GammaDeriv
import Mathlib.Analysis.Convex.SpecificFunctions.Basic

/-!
# The shape of the digamma function

It is concave, and convex as a function of the reciprocal of its argument.
-/

namespace Verif
open Set Filter Topology

theorem digamma_le_log (y : ℝ) (hy : 0 < y) : digamma y ≤ Real.log y := by
  have h := gammaln_tangent_le y (y + 1) hy (by linarith)
  rw [gammaln_add_one y hy] at h
  linarith

theorem log_le_digamma_add_one (y : ℝ) (hy : 0 < y) : Real.log y ≤ digamma (y + 1) := by
  have h := gammaln_tangent_le (y + 1) y (by linarith) hy
  rw [gammaln_add_one y hy] at h
  linarith

theorem digamma_add_nat (x : ℝ) (hx : 0 < x) (n : ℕ) :
    digamma (x + n) = digamma x + ∑ k ∈ Finset.range n, (x + k)⁻¹ := by
  induction n with
  | zero => simp
  | succ n ih =>
    have := digamma_add_one (x + n) (by positivity)
    push_cast
    rw [← add_assoc, this, ih, Finset.sum_range_succ, one_div]
    ring

theorem tendsto_log_ratio (x : ℝ) : Tendsto (fun n : ℕ => Real.log (1 + x / ((n : ℝ) + 1))) atTop (𝓝 0) := by
  have h : Tendsto (fun n : ℕ => 1 + x / ((n : ℝ) + 1)) atTop (𝓝 1) := by
    have := (tendsto_one_div_add_atTop_nhds_zero_nat (𝕜 := ℝ)).const_mul x
    have h2 := this.const_add 1
    rw [mul_zero, add_zero] at h2
    exact h2.congr fun n => by ring
  have := (Real.continuousAt_log (one_ne_zero)).tendsto.comp h
  rw [Real.log_one] at this
  exact this

/-- the series of the digamma function -/
theorem digamma_series (x : ℝ) (hx : 0 < x) :
    Tendsto (fun n : ℕ => Real.log ((n : ℝ) + 1) - ∑ k ∈ Finset.range (n + 2), (x + k)⁻¹) atTop (𝓝 (digamma x)) := by
  have hd : Tendsto (fun n : ℕ => digamma (x + ((n + 2 : ℕ) : ℝ)) - Real.log ((n : ℝ) + 1)) atTop (𝓝 0) := by
    refine tendsto_of_tendsto_of_tendsto_of_le_of_le (tendsto_const_nhds) (tendsto_log_ratio (x + 1)) (fun n => ?_) fun n => ?_
    · have h1 := log_le_digamma_add_one ((n : ℝ) + 1) (by positivity)
      have h2 : digamma ((n : ℝ) + 1 + 1) ≤ digamma (x + ((n + 2 : ℕ) : ℝ)) :=
        digamma_monotone (by positivity) (by push_cast; linarith)
      show (0 : ℝ) ≤ _
      linarith
    · have h1 := digamma_le_log (x + ((n + 2 : ℕ) : ℝ)) (by positivity)
      have h2 : Real.log (1 + (x + 1) / ((n : ℝ) + 1)) = Real.log (x + ((n + 2 : ℕ) : ℝ)) - Real.log ((n : ℝ) + 1) := by
        rw [← Real.log_div (by positivity) (by positivity)]
        congr 1
        push_cast
        field_simp
        ring
      show _ ≤ Real.log (1 + (x + 1) / ((n : ℝ) + 1))
      linarith
  have h := tendsto_const_nhds (x := digamma x).sub hd
  rw [sub_zero] at h
  refine h.congr fun n => ?_
  rw [digamma_add_nat x hx]
  ring

theorem convexOn_of_tendsto {s : Set ℝ} {f : ℕ → ℝ → ℝ} {g : ℝ → ℝ} (hf : ∀ n, ConvexOn ℝ s (f n))
    (h : ∀ x ∈ s, Tendsto (fun n => f n x) atTop (𝓝 (g x))) : ConvexOn ℝ s g :=
  ⟨(hf 0).1, fun x hx y hy a b ha hb hab =>
    le_of_tendsto_of_tendsto (h _ ((hf 0).1 hx hy ha hb hab))
      (((h x hx).const_smul a).add ((h y hy).const_smul b))
      (Eventually.of_forall fun n => (hf n).2 hx hy ha hb hab)⟩

theorem convexOn_finset_sum {s : Set ℝ} (hs : Convex ℝ s) {ι : Type} (t : Finset ι) {f : ι → ℝ → ℝ}
    (hf : ∀ i ∈ t, ConvexOn ℝ s (f i)) : ConvexOn ℝ s fun x => ∑ i ∈ t, f i x := by
  refine ⟨hs, fun x hx y hy a b ha hb hab => ?_⟩
  simp only [smul_eq_mul, Finset.mul_sum, ← Finset.sum_add_distrib]
  exact Finset.sum_le_sum fun i hi => (hf i hi).2 hx hy ha hb hab

theorem inv_jensen {u v a b : ℝ} (hu : 0 < u) (hv : 0 < v) (ha : 0 ≤ a) (hb : 0 ≤ b) (hab : a + b = 1) :
    (a * u + b * v)⁻¹ ≤ a * u⁻¹ + b * v⁻¹ := by
  have h := (convexOn_zpow (𝕜 := ℝ) (-1)).2 (x := u) (y := v) hu hv ha hb hab
  simpa using h

theorem digamma_concave : ConcaveOn ℝ (Ioi 0) digamma := by
  rw [← neg_convexOn_iff]
  refine convexOn_of_tendsto (f := fun n x => ∑ k ∈ Finset.range (n + 2), (x + k)⁻¹ + -Real.log ((n : ℝ) + 1)) (fun n => ?_)
    fun x hx => ?_
  · refine (convexOn_finset_sum (convex_Ioi 0) _ fun k _ => ?_).add_const _
    refine ⟨convex_Ioi 0, fun x hx y hy a b ha hb hab => ?_⟩
    have hx' : (0 : ℝ) < x := hx
    have hy' : (0 : ℝ) < y := hy
    have := inv_jensen (u := x + k) (v := y + k) (by positivity) (by positivity) ha hb hab
    simp only [smul_eq_mul]
    rwa [show a * x + b * y + (k : ℝ) = a * (x + k) + b * (y + k) by linear_combination -(k : ℝ) * hab]
  · refine (digamma_series x hx).neg.congr fun n => ?_
    ring

/-- convex as a function of the reciprocal -/
theorem digamma_inv_convex : ConvexOn ℝ (Ioi 0) fun s => digamma s⁻¹ := by
  refine convexOn_of_tendsto (f := fun n s => ∑ k ∈ Finset.range (n + 2), -(s⁻¹ + k)⁻¹ + Real.log ((n : ℝ) + 1)) (fun n => ?_)
    fun s hs => ?_
  · refine (convexOn_finset_sum (convex_Ioi 0) _ fun k _ => ?_).add_const _
    refine ⟨convex_Ioi 0, fun x hx y hy a b ha hb hab => ?_⟩
    have hx' : (0 : ℝ) < x := hx
    have hy' : (0 : ℝ) < y := hy
    have hxy : 0 < a * x + b * y := (convex_Ioi (0 : ℝ)) hx hy ha hb hab
    simp only [smul_eq_mul]
    rcases Nat.eq_zero_or_pos k with rfl | hk
    · simp only [Nat.cast_zero, add_zero, inv_inv]
      linarith
    · have hk' : (0 : ℝ) < k := by exact_mod_cast hk
      have e : ∀ s : ℝ, 0 < s → -(s⁻¹ + (k : ℝ))⁻¹ = ((1 + k * s)⁻¹ - 1) / k := by
        intro s hs
        field_simp
        ring
      rw [e _ hxy, e x hx', e y hy']
      have := inv_jensen (u := 1 + k * x) (v := 1 + k * y) (by positivity) (by positivity) ha hb hab
      have e2 : 1 + k * (a * x + b * y) = a * (1 + k * x) + b * (1 + k * y) := by linear_combination -hab
      rw [e2]
      rw [show a * (((1 + k * x)⁻¹ - 1) / k) + b * (((1 + k * y)⁻¹ - 1) / k)
        = (a * (1 + k * x)⁻¹ + b * (1 + k * y)⁻¹ - (a + b)) / k by ring, hab]
      gcongr
  · refine (digamma_series s⁻¹ (inv_pos.2 hs)).congr fun n => ?_
    rw [Finset.sum_neg_distrib]
    ring

theorem digamma_tangent (a b : ℝ) (ha : 0 < a) (hb : 0 < b) : digamma b ≤ digamma a + deriv digamma a * (b - a) := by
  have hd : HasDerivAt digamma (deriv digamma a) a := hasDerivAt_digamma a ha
  rcases lt_trichotomy a b with h | h | h
  · have := digamma_concave.slope_le_of_hasDerivAt ha hb h hd
    rw [slope_def_field, div_le_iff₀ (by linarith)] at this
    linarith
  · subst h; simp
  · have := digamma_concave.le_slope_of_hasDerivAt hb ha h hd
    rw [slope_def_field, le_div_iff₀ (by linarith)] at this
    linarith

theorem digamma_inv_tangent (a b : ℝ) (ha : 0 < a) (hb : 0 < b) :
    digamma a - deriv digamma a * a ^ 2 * (b⁻¹ - a⁻¹) ≤ digamma b := by
  have hd : HasDerivAt (fun s => digamma s⁻¹) (deriv digamma a * -(a ^ 2)) a⁻¹ := by
    have h1 : HasDerivAt digamma (deriv digamma a) (a⁻¹)⁻¹ := by rw [inv_inv]; exact hasDerivAt_digamma a ha
    have h2 := hasDerivAt_inv (inv_ne_zero ha.ne')
    have := h1.comp a⁻¹ h2
    rwa [inv_pow, inv_inv] at this
  have ha' := inv_pos.2 ha
  have hb' := inv_pos.2 hb
  rcases lt_trichotomy a⁻¹ b⁻¹ with h | h | h
  · have := digamma_inv_convex.le_slope_of_hasDerivAt ha' hb' h hd
    rw [slope_def_field, le_div_iff₀ (by linarith), inv_inv, inv_inv] at this
    linarith
  · rw [h, inv_inj.1 h]; simp
  · have := digamma_inv_convex.slope_le_of_hasDerivAt hb' ha' h hd
    rw [slope_def_field, div_le_iff₀ (by linarith), inv_inv, inv_inv] at this
    linarith

theorem digamma_one : digamma 1 = -Real.eulerMascheroniConstant := by
  have h := Real.hasDerivAt_Gamma_one.log (by rw [Real.Gamma_one]; exact one_ne_zero)
  rw [Real.Gamma_one, div_one] at h
  exact h.deriv

end Verif
