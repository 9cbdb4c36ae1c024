import Verif.Model.InvPsi
import Verif.Lemmas.DigammaShape
import Mathlib.Analysis.Complex.ExponentialBounds

/-!
# C74: the inverse digamma function computed by five Newton steps has a relative error below 1e-7
-/

namespace Verif
open Set Filter Topology

/-- One step is at most the solution, and its relative error is at most the square of the one before. -/
theorem invpsi_step (x y z : ℝ) (hy : 0 < y) (hz : 0 < z) (h : digamma z = x) :
    z * (1 - (1 - y / z) ^ 2) ≤ invpsiStep x y ∧ invpsiStep x y ≤ z := by
  have hp : 0 < deriv digamma y := trigamma_pos y hy
  have h1 := digamma_tangent y z hy hz
  have h2 := digamma_inv_tangent y z hy hz
  rw [h] at h1 h2
  have e : z * (1 - (1 - y / z) ^ 2) = y - y ^ 2 * (z⁻¹ - y⁻¹) := by field_simp; ring
  rw [e, invpsiStep]
  constructor
  · have : (digamma y - x) / deriv digamma y ≤ y ^ 2 * (z⁻¹ - y⁻¹) := by
      rw [div_le_iff₀ hp]; linarith
    linarith
  · have : y - z ≤ (digamma y - x) / deriv digamma y := by
      rw [le_div_iff₀ hp]; linarith
    linarith

theorem le_of_digamma {y z : ℝ} (hy : 0 < y) (hz : 0 < z) (h : digamma y ≤ digamma z) : y ≤ z := by
  by_contra hc
  have := digamma_strictMonoOn hz hy (not_le.1 hc)
  linarith

theorem log_tangent (u c : ℝ) (hu : 0 < u) (hc : 0 < c) : Real.log u ≤ u / c + Real.log c - 1 := by
  have := Real.log_le_sub_one_of_pos (div_pos hu hc)
  rw [Real.log_div hu.ne' hc.ne'] at this
  linarith

theorem exp_bound : (0.108 : ℝ) ≤ Real.exp (-2.22) := by
  have e : Real.exp (-2.22) = Real.exp (-1) ^ 2 * Real.exp (-0.0275) ^ 8 := by
    rw [← Real.exp_nat_mul, ← Real.exp_nat_mul, ← Real.exp_add]; norm_num
  have h1 : (0.3678 : ℝ) ≤ Real.exp (-1) := by have := Real.exp_neg_one_gt_d9; norm_num at this ⊢; linarith
  have h2 : (0.9725 : ℝ) ≤ Real.exp (-0.0275) := by have := Real.add_one_le_exp (-0.0275 : ℝ); norm_num at this ⊢; linarith
  rw [e]
  calc (0.108 : ℝ) ≤ 0.3678 ^ 2 * 0.9725 ^ 8 := by norm_num
    _ ≤ _ := by gcongr

theorem start_log (w : ℝ) (hw : 0.108 ≤ w) : Real.log ((10 * w + 21) / (16 * w)) ≤ 16 / (10 * w + 5) := by
  have hw0 : 0 < w := by norm_num at hw; linarith
  have hl := Real.log_two_lt_d9
  have key : ∀ c K : ℝ, 0 < c → Real.log c - 1 ≤ K → (10 * w + 21 + 16 * c * K * w) * (10 * w + 5) ≤ 256 * c * w →
      Real.log ((10 * w + 21) / (16 * w)) ≤ 16 / (10 * w + 5) := by
    intro c K hc hK hq
    have h1 := log_tangent ((10 * w + 21) / (16 * w)) c (by positivity) hc
    have h2 : (10 * w + 21) / (16 * w) / c + K ≤ 16 / (10 * w + 5) := by
      rw [div_div, div_add' _ _ _ (by positivity), div_le_div_iff₀ (by positivity) (by positivity)]
      nlinarith
    linarith
  norm_num at hw hl
  rcases le_total w 0.2 with h | h
  · refine key 16 1.773 (by norm_num) ?_ ?_
    · rw [show (16 : ℝ) = 2 ^ 4 by norm_num, Real.log_pow]
      norm_num
      linarith
    · norm_num at h ⊢
      nlinarith [mul_nonneg (sub_nonneg.2 hw) (sub_nonneg.2 h)]
  · rcases le_total w 1.2 with h' | h'
    · refine key 4 0.3864 (by norm_num) ?_ ?_
      · rw [show (4 : ℝ) = 2 ^ 2 by norm_num, Real.log_pow]
        norm_num
        linarith
      · norm_num at h h' ⊢
        nlinarith [mul_nonneg (sub_nonneg.2 h) (sub_nonneg.2 h')]
    · refine key 1 (-1) one_pos (by simp) ?_
      norm_num at h' ⊢
      nlinarith

theorem invpsi_start (x z : ℝ) (hz : 0 < z) (h : digamma z = x) :
    0 < invpsiStart x ∧ |1 - invpsiStart x / z| ≤ 3 / 5 := by
  suffices hs : 0 < invpsiStart x ∧ 5 / 8 * invpsiStart x ≤ z ∧ z ≤ 5 / 2 * invpsiStart x by
    refine ⟨hs.1, ?_⟩
    rw [abs_le]
    have h1 : invpsiStart x / z ≤ 8 / 5 := by rw [div_le_iff₀ hz]; linarith [hs.2.1]
    have h2 : 2 / 5 ≤ invpsiStart x / z := by rw [le_div_iff₀ hz]; linarith [hs.2.2]
    constructor <;> linarith
  unfold invpsiStart
  split_ifs with hx
  · set w := Real.exp x with hw
    have hw0 : 0 < w := Real.exp_pos x
    have hw1 : 0.108 ≤ w := exp_bound.trans (Real.exp_le_exp.2 hx)
    have hxw : x = Real.log w := by rw [hw, Real.log_exp]
    refine ⟨by positivity, le_of_digamma (by positivity) hz ?_, le_of_digamma hz (by positivity) ?_⟩
    · rw [h, hxw]
      have h1 := digamma_add_one (5 / 8 * (w + 0.5)) (by positivity)
      have h2 := digamma_le_log (5 / 8 * (w + 0.5) + 1) (by positivity)
      have h3 := start_log w hw1
      have e1 : (10 * w + 21) / (16 * w) = (5 / 8 * (w + 0.5) + 1) / w := by field_simp; ring
      have e2 : 16 / (10 * w + 5) = 1 / (5 / 8 * (w + 0.5)) := by
        rw [div_eq_div_iff (by positivity) (by positivity)]; ring
      rw [e1, Real.log_div (by positivity) hw0.ne', e2] at h3
      linarith
    · rw [h, hxw]
      refine (log_le_digamma_add_one w hw0).trans (digamma_monotone (by positivity) ?_)
      norm_num
      linarith
  · have hx' : x < -2.22 := not_le.1 hx
    have hg := Real.eulerMascheroniConstant_lt_two_thirds
    rw [digamma_one]
    set y := -1 / (x - -Real.eulerMascheroniConstant) with hy
    have hden : x + Real.eulerMascheroniConstant < -1.55 := by norm_num at hx' ⊢; linarith
    have hyi : 1 / y = -(x + Real.eulerMascheroniConstant) := by rw [hy, sub_neg_eq_add]; field_simp
    have hy0 : 0 < y := by rw [hy, sub_neg_eq_add]; exact div_pos_of_neg_of_neg (by norm_num) (by linarith)
    have hy1 : y ≤ 0.65 := by
      have : 1.55 ≤ 1 / y := by rw [hyi]; linarith
      rw [le_div_iff₀ hy0] at this
      norm_num at this ⊢
      linarith
    refine ⟨hy0, le_of_digamma (by positivity) hz ?_, le_of_digamma hz (by positivity) ?_⟩
    · rw [h]
      set t := 5 / 8 * y with ht
      have ht0 : 0 < t := by positivity
      have h1 := digamma_add_one t ht0
      have h2 := digamma_add_one (t + 1) (by positivity)
      have h3 := digamma_add_one 1 one_pos
      have h4 : digamma (t + 1 + 1) - digamma (1 + 1) ≤ t := by
        have c := digamma_concave.slope_anti_adjacent (x := 1) (y := 1 + 1) (z := t + 1 + 1) (by simp) (by simp; linarith)
          (by norm_num) (by linarith)
        rw [h3] at c ⊢
        have : t + 1 + 1 - (1 + 1) = t := by ring
        rw [this, div_le_div_iff₀ ht0 (by norm_num)] at c
        norm_num at c ⊢
        linarith
      have h5 : 1 / t = 8 / 5 * (1 / y) := by rw [ht]; field_simp
      have h6 : 1 - 1 / (t + 1) ≤ t := by
        rw [sub_le_iff_le_add, ← sub_le_iff_le_add', le_div_iff₀ (by positivity)]
        nlinarith
      have h7 : 2 * t ≤ 3 / 5 * (1 / y) := by
        rw [ht]
        have : y * y ≤ 0.65 * 0.65 := by nlinarith
        rw [mul_one_div, le_div_iff₀ hy0]
        norm_num at this ⊢
        nlinarith
      rw [digamma_one] at h3
      have h8 : x = -Real.eulerMascheroniConstant - 1 / y := by rw [hyi]; ring
      rw [h8]
      rw [h2, h1, h3, h5] at h4
      generalize 1 / y = p at *
      generalize 1 / (t + 1) = q at *
      linarith
    · have h1 := digamma_add_one y hy0
      have h2 : digamma 1 ≤ digamma (y + 1) := digamma_monotone one_pos (by linarith)
      have h3 : digamma y ≤ digamma (5 / 2 * y) := digamma_monotone hy0 (by linarith)
      rw [digamma_one] at h2
      have h8 : x = -Real.eulerMascheroniConstant - 1 / y := by rw [hyi]; ring
      rw [h, h8]
      linarith

theorem invpsi_loop (x z : ℝ) (hz : 0 < z) (h : digamma z = x) (n : ℕ) :
    0 < invpsiLoop n x ∧ |1 - invpsiLoop n x / z| ≤ (3 / 5) ^ 2 ^ n ∧ (0 < n → invpsiLoop n x ≤ z) := by
  induction n with
  | zero => exact ⟨(invpsi_start x z hz h).1, by rw [pow_zero, pow_one]; exact (invpsi_start x z hz h).2, by simp⟩
  | succ n ih =>
    obtain ⟨h0, h1, -⟩ := ih
    have e : invpsiLoop (n + 1) x = invpsiStep x (invpsiLoop n x) := Function.iterate_succ_apply' _ _ _
    rw [e]
    obtain ⟨h2, h3⟩ := invpsi_step x (invpsiLoop n x) z h0 hz h
    set y := invpsiStep x (invpsiLoop n x)
    have hq : (1 - invpsiLoop n x / z) ^ 2 ≤ (3 / 5) ^ 2 ^ (n + 1) := by
      rw [← sq_abs, pow_succ 2 n, pow_mul]
      gcongr
    have hle : ((3 : ℝ) / 5) ^ 2 ^ (n + 1) ≤ 3 / 5 := by
      conv_rhs => rw [← pow_one (3 / 5 : ℝ)]
      exact pow_le_pow_of_le_one (by norm_num) (by norm_num) Nat.one_le_two_pow
    have hl : 1 - (1 - invpsiLoop n x / z) ^ 2 ≤ y / z := by rw [le_div_iff₀ hz]; linarith
    have hu : y / z ≤ 1 := by rw [div_le_one hz]; exact h3
    refine ⟨?_, ?_, fun _ => h3⟩
    · have : 0 < y / z := by linarith
      have := mul_pos this hz
      rwa [div_mul_cancel₀ _ hz.ne'] at this
    · rw [abs_of_nonneg (by linarith)]
      linarith

/-- **C74** "This calculates the value Y > 0 for a value X such that digamma(Y) = X": there is exactly one such value, and
the relative error of the value computed is below 1e-7; the error is always towards zero. -/
theorem C74_invpsi (x : ℝ) : ∃ y, 0 < y ∧ digamma y = x ∧ (∀ z, 0 < z → digamma z = x → z = y) ∧
    0 < invpsiComputed x ∧ invpsiComputed x ≤ y ∧ y - invpsiComputed x ≤ 1e-7 * y := by
  obtain ⟨y, hy, h⟩ := digamma_surj x
  refine ⟨y, hy, h, fun z hz e => digamma_strictMonoOn.injOn hz hy (e.trans h.symm), ?_⟩
  obtain ⟨h0, h1, h2⟩ := invpsi_loop x y hy h 5
  refine ⟨h0, h2 (by norm_num), ?_⟩
  have h3 := (le_abs_self _).trans h1
  have h4 : ((3 : ℝ) / 5) ^ 2 ^ 5 ≤ 1e-7 := by norm_num
  have h5 : 1 - invpsiLoop 5 x / y ≤ 1e-7 := h3.trans h4
  have h6 := mul_le_mul_of_nonneg_right h5 hy.le
  rw [sub_mul, one_mul, div_mul_cancel₀ _ hy.ne'] at h6
  exact h6

/-- **C74** Every further Newton step squares the relative error, whatever the argument. -/
theorem C74_quadratic (x y : ℝ) (hy : 0 < y) (h : digamma y = x) (n : ℕ) :
    |1 - invpsiLoop (n + 1) x / y| ≤ |1 - invpsiLoop n x / y| ^ 2 := by
  obtain ⟨h0, -, -⟩ := invpsi_loop x y hy h n
  have e : invpsiLoop (n + 1) x = invpsiStep x (invpsiLoop n x) := Function.iterate_succ_apply' _ _ _
  obtain ⟨h2, h3⟩ := invpsi_step x (invpsiLoop n x) y h0 hy h
  rw [e, sq_abs]
  have hl : 1 - (1 - invpsiLoop n x / y) ^ 2 ≤ invpsiStep x (invpsiLoop n x) / y := by rw [le_div_iff₀ hy]; linarith
  have hu : invpsiStep x (invpsiLoop n x) / y ≤ 1 := by rw [div_le_one hy]; exact h3
  rw [abs_of_nonneg (by linarith)]
  linarith

/-- **C74** With more steps the values converge to the solution. -/
theorem C74_converges (x y : ℝ) (hy : 0 < y) (h : digamma y = x) : Tendsto (fun n => invpsiLoop n x) atTop (𝓝 y) := by
  have h1 : Tendsto (fun n : ℕ => ((3 : ℝ) / 5) ^ 2 ^ n) atTop (𝓝 0) :=
    (tendsto_pow_atTop_nhds_zero_of_lt_one (by norm_num) (by norm_num)).comp (tendsto_pow_atTop_atTop_of_one_lt one_lt_two)
  have h2 : Tendsto (fun n => 1 - invpsiLoop n x / y) atTop (𝓝 0) :=
    squeeze_zero_norm (fun n => (invpsi_loop x y hy h n).2.1) h1
  have h3 := ((tendsto_const_nhds (x := (1 : ℝ))).sub h2).mul_const y
  rw [sub_zero, one_mul] at h3
  refine h3.congr fun n => ?_
  field_simp
  ring

/-- the computed value at `digamma 1`, whose inverse is one -/
example : 0.9999999 ≤ invpsiComputed (digamma 1) ∧ invpsiComputed (digamma 1) ≤ 1 := by
  obtain ⟨y, -, -, hu, -, h1, h2⟩ := C74_invpsi (digamma 1)
  rw [← hu 1 one_pos rfl] at h1 h2
  refine ⟨?_, h1⟩
  norm_num at h2 ⊢
  linarith

/-- both starting points are used -/
example : invpsiStart 0 = 1.5 ∧ invpsiStart (digamma 1 - 4) = 1 / 4 := by
  have := Real.one_half_lt_eulerMascheroniConstant
  constructor
  · rw [invpsiStart, if_pos (by norm_num), Real.exp_zero]; norm_num
  · rw [invpsiStart, if_neg ?_]
    · rw [sub_sub_cancel_left]; norm_num
    · rw [digamma_one]; norm_num; linarith

end Verif
