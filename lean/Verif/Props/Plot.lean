import Verif.Model.Plot
import Verif.Spec.Plot
import Mathlib.Tactic.FieldSimp
import Mathlib.Tactic.LinearCombination
import Mathlib.LinearAlgebra.Matrix.NonsingularInverse

/-!
# C88: figures show the distributions
-/

namespace Verif
open Spec Matrix

/-! ### Ellipses -/

theorem eq_one_or_of_sq {a : ℝ} (h : a ^ 2 = 1) : a = 1 ∨ a = -1 := by
  have : (a - 1) * (a + 1) = 0 := by linear_combination h
  rcases mul_eq_zero.1 this with h | h
  · exact .inl (by linarith)
  · exact .inr (by linarith)

theorem exists_angle {a b : ℝ} (h : a ^ 2 + b ^ 2 = 1) : ∃ t, a = Real.cos t ∧ b = Real.sin t := by
  have hn : ‖(⟨a, b⟩ : ℂ)‖ = 1 := by
    rw [Complex.norm_def, Complex.normSq_apply]
    show Real.sqrt (a * a + b * b) = 1
    rw [← sq, ← sq, h, Real.sqrt_one]
  have h0 : (⟨a, b⟩ : ℂ) ≠ 0 := fun h0 => by rw [h0, norm_zero] at hn; exact zero_ne_one hn
  exact ⟨Complex.arg ⟨a, b⟩, by rw [Complex.cos_arg h0, hn, div_one], by rw [Complex.sin_arg, hn, div_one]⟩

/-- The ellipse in coordinates along its axes -/
theorem mem_ellipseCurve {xy p : Fin 2 → ℝ} {w h a c s : ℝ} (hw : 0 < w) (hh : 0 < h) (hc : Real.cos (a * Real.pi / 180) = c)
    (hs : Real.sin (a * Real.pi / 180) = s) :
    p ∈ ellipseCurve xy w h a ↔
      (c * (p 0 - xy 0) + s * (p 1 - xy 1)) ^ 2 / (w / 2) ^ 2 + (-s * (p 0 - xy 0) + c * (p 1 - xy 1)) ^ 2 / (h / 2) ^ 2 = 1 := by
  have hcs : c ^ 2 + s ^ 2 = 1 := by rw [← hc, ← hs]; exact Real.cos_sq_add_sin_sq _
  unfold ellipseCurve
  rw [hc, hs]
  constructor
  · rintro ⟨t, h0, h1⟩
    have e0 : c * (p 0 - xy 0) + s * (p 1 - xy 1) = w / 2 * Real.cos t := by
      rw [h0, h1]
      linear_combination (w / 2 * Real.cos t) * hcs
    have e1 : -s * (p 0 - xy 0) + c * (p 1 - xy 1) = h / 2 * Real.sin t := by
      rw [h0, h1]
      linear_combination (h / 2 * Real.sin t) * hcs
    rw [e0, e1, mul_pow, mul_pow, mul_div_cancel_left₀ _ (by positivity), mul_div_cancel_left₀ _ (by positivity)]
    exact Real.cos_sq_add_sin_sq t
  · intro he
    rw [← div_pow, ← div_pow] at he
    obtain ⟨t, t0, t1⟩ := exists_angle he
    have e0 : c * (p 0 - xy 0) + s * (p 1 - xy 1) = w / 2 * Real.cos t := by rw [← t0]; field_simp
    have e1 : -s * (p 0 - xy 0) + c * (p 1 - xy 1) = h / 2 * Real.sin t := by rw [← t1]; field_simp
    refine ⟨t, ?_, ?_⟩
    · rw [← e0, ← e1]
      linear_combination -(p 0 - xy 0) * hcs
    · rw [← e0, ← e1]
      linear_combination -(p 1 - xy 1) * hcs

section
variable {A W : Matrix (Fin 2) (Fin 2) ℝ} {e : Fin 2 → ℝ}

/-- The entries of the eigenvectors -/
theorem Spec.Eigh.entries (h : Eigh A e W) : W 0 0 ^ 2 + W 1 0 ^ 2 = 1 ∧ W 0 1 ^ 2 + W 1 1 ^ 2 = 1 ∧ W 0 0 * W 0 1 + W 1 0 * W 1 1 = 0 := by
  have h00 := congrFun (congrFun h.orthonormal 0) 0
  have h11 := congrFun (congrFun h.orthonormal 1) 1
  have h01 := congrFun (congrFun h.orthonormal 0) 1
  simp only [Matrix.mul_apply, Fin.sum_univ_two, transpose_apply, one_apply_eq] at h00 h11
  simp only [Matrix.mul_apply, Fin.sum_univ_two, transpose_apply, ne_eq, zero_ne_one, not_false_eq_true, one_apply_ne] at h01
  exact ⟨by linarith [h00], by linarith [h11], h01⟩

/-- The second eigenvector is the first turned by a right angle, in one or the other direction -/
theorem Spec.Eigh.second (h : Eigh A e W) : W 0 1 = -(W.det * W 1 0) ∧ W 1 1 = W.det * W 0 0 ∧ (W.det = 1 ∨ W.det = -1) := by
  obtain ⟨h1, h2, h3⟩ := h.entries
  rw [det_fin_two]
  refine ⟨?_, ?_, ?_⟩
  · linear_combination (-W 0 1) * h1 + W 0 0 * h3
  · linear_combination (-W 1 1) * h1 + W 1 0 * h3
  · have : (W 0 0 * W 1 1 - W 0 1 * W 1 0) ^ 2 = 1 := by
      linear_combination (W 0 1 ^ 2 + W 1 1 ^ 2) * h1 + h2 - (W 0 0 * W 0 1 + W 1 0 * W 1 1) * h3
    exact eq_one_or_of_sq this

/-- The quadratic form in the coordinates of the eigenvectors -/
theorem Spec.Eigh.form (h : Eigh A e W) (d : Fin 2 → ℝ) :
    d ⬝ᵥ (A *ᵥ d) = e 0 * (W 0 0 * d 0 + W 1 0 * d 1) ^ 2 + e 1 * (-W 1 0 * d 0 + W 0 0 * d 1) ^ 2 := by
  obtain ⟨h1, h2, h3⟩ := h.entries
  obtain ⟨s1, s2, s3⟩ := h.second
  have a00 := congrFun (h.eigen 0) 0
  have a10 := congrFun (h.eigen 0) 1
  have a01 := congrFun (h.eigen 1) 0
  have a11 := congrFun (h.eigen 1) 1
  simp only [mulVec, dotProduct, Fin.sum_univ_two, Pi.smul_apply, smul_eq_mul] at a00 a10 a01 a11 ⊢
  have hd : W.det ^ 2 = 1 := by rcases s3 with h | h <;> rw [h] <;> norm_num
  rw [s1, s2] at a01 a11
  -- the entries of the matrix
  have b0 : A 0 0 * -W 1 0 + A 0 1 * W 0 0 = e 1 * -W 1 0 := by linear_combination W.det * a01 - (A 0 0 * -W 1 0 + A 0 1 * W 0 0 - e 1 * -W 1 0) * hd
  have b1 : A 1 0 * -W 1 0 + A 1 1 * W 0 0 = e 1 * W 0 0 := by linear_combination W.det * a11 - (A 1 0 * -W 1 0 + A 1 1 * W 0 0 - e 1 * W 0 0) * hd
  set c := W 0 0
  set s := W 1 0
  have e00 : A 0 0 = e 0 * c ^ 2 + e 1 * s ^ 2 := by linear_combination c * a00 - s * b0 - A 0 0 * h1
  have e01 : A 0 1 = (e 0 - e 1) * (c * s) := by linear_combination s * a00 + c * b0 - A 0 1 * h1
  have e10 : A 1 0 = (e 0 - e 1) * (c * s) := by linear_combination c * a10 - s * b1 - A 1 0 * h1
  have e11 : A 1 1 = e 0 * s ^ 2 + e 1 * c ^ 2 := by linear_combination s * a10 + c * b1 - A 1 1 * h1
  rw [e00, e01, e10, e11]
  ring

theorem Spec.Eigh.det (h : Eigh A e W) : A.det = e 0 * e 1 := by
  have hA : A * W = W * Matrix.diagonal e := by
    ext r i
    have := congrFun (h.eigen i) r
    simp only [mulVec, dotProduct, Pi.smul_apply, smul_eq_mul] at this
    rw [Matrix.mul_apply, mul_diagonal, this, mul_comm]
  have hd := congrArg Matrix.det hA
  rw [det_mul, det_mul, det_diagonal, Fin.prod_univ_two] at hd
  have hW : W.det ≠ 0 := by rcases h.second.2.2 with h | h <;> rw [h] <;> norm_num
  exact mul_right_cancel₀ hW (by rw [hd]; ring)

/-- The eigenvectors of a positive definite matrix have positive eigenvalues -/
theorem Spec.Eigh.pos (h : Eigh A e W) (hA : A.PosDef) (i : Fin 2) : 0 < e i := by
  have hne : (fun r => W r i) ≠ 0 := fun h0 => by
    have h0' := congrFun h0 0
    have h1' := congrFun h0 1
    obtain ⟨h1, h2, -⟩ := h.entries
    fin_cases i
    · simp only [Fin.zero_eta, Pi.zero_apply] at h0' h1'; rw [h0', h1'] at h1; norm_num at h1
    · simp only [Fin.mk_one, Pi.zero_apply] at h0' h1'; rw [h0', h1'] at h2; norm_num at h2
  have hp := hA.dotProduct_mulVec_pos hne
  rw [h.eigen i, star_trivial, dotProduct_smul, smul_eq_mul] at hp
  have : 0 ≤ (fun r => W r i) ⬝ᵥ fun r => W r i := by
    simp only [dotProduct]
    exact Finset.sum_nonneg fun r _ => mul_self_nonneg _
  by_contra hneg
  exact absurd hp (not_lt.2 (mul_nonpos_of_nonpos_of_nonneg (not_lt.1 hneg) this))

theorem arctanRatio_spec {x y : ℝ} (h : x ^ 2 + y ^ 2 = 1) :
    ∃ σ : ℝ, σ ^ 2 = 1 ∧ Real.cos (arctanRatio y x) = σ * x ∧ Real.sin (arctanRatio y x) = σ * y := by
  unfold arctanRatio
  by_cases hx : x = 0
  · rw [if_pos hx]
    subst hx
    have hy : y = 1 ∨ y = -1 := by
      have : y ^ 2 = 1 := by linarith
      exact eq_one_or_of_sq this
    rcases hy with rfl | rfl
    · exact ⟨1, by norm_num, by norm_num, by norm_num⟩
    · exact ⟨1, by norm_num, by norm_num, by norm_num⟩
  · rw [if_neg hx]
    have hs : Real.sqrt (1 + (y / x) ^ 2) = 1 / |x| := by
      have : 1 + (y / x) ^ 2 = (1 / |x|) ^ 2 := by
        rw [div_pow, div_pow, sq_abs, one_pow]
        field_simp
        exact h
      rw [this, Real.sqrt_sq (by positivity)]
    refine ⟨|x| / x, ?_, ?_, ?_⟩
    · rw [div_pow, sq_abs, div_self (pow_ne_zero 2 hx)]
    · rw [Real.cos_arctan, hs]
      field_simp
    · rw [Real.sin_arctan, hs]
      have := abs_ne_zero.2 hx
      field_simp

/-- The direction of the ellipse of a mixture -/
theorem mixtureEllipse_angle (mu : Fin 2 → ℝ) (h : Eigh A e W) (scale : ℝ) : ∃ σ : ℝ, σ ^ 2 = 1 ∧
    Real.cos ((mixtureEllipse mu e W scale).angle * Real.pi / 180) = σ * W 0 0 ∧
    Real.sin ((mixtureEllipse mu e W scale).angle * Real.pi / 180) = σ * W 0 1 := by
  obtain ⟨h1, h2, h3⟩ := h.entries
  obtain ⟨s1, s2, s3⟩ := h.second
  have hr : W 0 0 ^ 2 + W 0 1 ^ 2 = 1 := by
    have hd : W.det ^ 2 = 1 := by rcases s3 with h | h <;> rw [h] <;> norm_num
    rw [s1]
    linear_combination h1 + W 1 0 ^ 2 * hd
  obtain ⟨σ, k1, k2, k3⟩ := arctanRatio_spec hr
  have ha : (mixtureEllipse mu e W scale).angle * Real.pi / 180 = arctanRatio (W 0 1) (W 0 0) + Real.pi := by
    show (180 + 180 * arctanRatio (W 0 1) (W 0 0) / Real.pi) * Real.pi / 180 = _
    have := Real.pi_ne_zero
    field_simp
    ring
  rw [ha, Real.cos_add_pi, Real.sin_add_pi, k2, k3]
  exact ⟨-σ, by rw [neg_sq, k1], by ring, by ring⟩

theorem mem_mixtureEllipse (mu : Fin 2 → ℝ) (h : Eigh A e W) (hA : A.PosDef) {scale : ℝ} (hs : 0 < scale) (p : Fin 2 → ℝ) :
    p ∈ ellipseCurve (mixtureEllipse mu e W scale).xy (mixtureEllipse mu e W scale).width (mixtureEllipse mu e W scale).height
        (mixtureEllipse mu e W scale).angle ↔
      e 0 * (W 0 0 * (p 0 - mu 0) + W 0 1 * (p 1 - mu 1)) ^ 2 + e 1 * (-W 0 1 * (p 0 - mu 0) + W 0 0 * (p 1 - mu 1)) ^ 2 = scale ^ 2 := by
  have e0 := h.pos hA 0
  have e1 := h.pos hA 1
  obtain ⟨σ, k1, k2, k3⟩ := mixtureEllipse_angle mu h scale
  have w0 : (mixtureEllipse mu e W scale).width = scale * (2 * Real.sqrt (1 / e 0)) := rfl
  have w1 : (mixtureEllipse mu e W scale).height = scale * (2 * Real.sqrt (1 / e 1)) := rfl
  have hxy : (mixtureEllipse mu e W scale).xy = mu := rfl
  rw [mem_ellipseCurve (by rw [w0]; positivity) (by rw [w1]; positivity) k2 k3, w0, w1, hxy]
  have q0 : (scale * (2 * Real.sqrt (1 / e 0)) / 2) ^ 2 = scale ^ 2 / e 0 := by
    have : scale * (2 * Real.sqrt (1 / e 0)) / 2 = scale * Real.sqrt (1 / e 0) := by ring
    rw [this, mul_pow, Real.sq_sqrt (by positivity)]
    ring
  have q1 : (scale * (2 * Real.sqrt (1 / e 1)) / 2) ^ 2 = scale ^ 2 / e 1 := by
    have : scale * (2 * Real.sqrt (1 / e 1)) / 2 = scale * Real.sqrt (1 / e 1) := by ring
    rw [this, mul_pow, Real.sq_sqrt (by positivity)]
    ring
  rw [q0, q1]
  have r0 : (σ * W 0 0 * (p 0 - mu 0) + σ * W 0 1 * (p 1 - mu 1)) ^ 2 = (W 0 0 * (p 0 - mu 0) + W 0 1 * (p 1 - mu 1)) ^ 2 := by
    linear_combination (W 0 0 * (p 0 - mu 0) + W 0 1 * (p 1 - mu 1)) ^ 2 * k1
  have r1 : (-(σ * W 0 1) * (p 0 - mu 0) + σ * W 0 0 * (p 1 - mu 1)) ^ 2 = (-W 0 1 * (p 0 - mu 0) + W 0 0 * (p 1 - mu 1)) ^ 2 := by
    linear_combination (-W 0 1 * (p 0 - mu 0) + W 0 0 * (p 1 - mu 1)) ^ 2 * k1
  rw [r0, r1]
  field_simp

/-- **C88** The ellipse that `gaussian_mixture_2d` draws for a cluster with mean `mu` and precision `A` is the curve at `scale` standard
deviations from the mean exactly if the eigenvectors that `eigh` returns form a reflection, or the eigenvalues are equal, or an eigenvector
lies on a coordinate axis.  Partial: if they form a rotation, the ellipse is turned in the wrong direction, see
`C88_mixture_ellipse_refuted`; `eigh` promises neither. -/
theorem C88_mixture_ellipse_partial (mu : Fin 2 → ℝ) (h : Eigh A e W) (hA : A.PosDef) {scale : ℝ} (hs : 0 < scale) :
    ellipseCurve (mixtureEllipse mu e W scale).xy (mixtureEllipse mu e W scale).width (mixtureEllipse mu e W scale).height
        (mixtureEllipse mu e W scale).angle = deviationCurve mu A scale ↔
      W.det = -1 ∨ e 0 = e 1 ∨ W 0 0 = 0 ∨ W 0 1 = 0 := by
  have e0 := h.pos hA 0
  have e1 := h.pos hA 1
  obtain ⟨h1, h2, h3⟩ := h.entries
  obtain ⟨s1, s2, s3⟩ := h.second
  have hdev : ∀ p, p ∈ deviationCurve mu A scale ↔
      e 0 * (W 0 0 * (p 0 - mu 0) + W 1 0 * (p 1 - mu 1)) ^ 2 + e 1 * (-W 1 0 * (p 0 - mu 0) + W 0 0 * (p 1 - mu 1)) ^ 2 = scale ^ 2 := fun p => by
    unfold deviationCurve
    rw [Set.mem_ofPred_eq, h.form]
    rfl
  constructor
  · intro heq
    by_contra hno
    push Not at hno
    obtain ⟨n1, n2, n3, n4⟩ := hno
    have hd : W.det = 1 := s3.resolve_right n1
    rw [hd, one_mul] at s1
    -- the end of the first axis of the ellipse
    set p : Fin 2 → ℝ := ![mu 0 + scale / Real.sqrt (e 0) * W 0 0, mu 1 + scale / Real.sqrt (e 0) * W 0 1] with hp
    have p0 : p 0 - mu 0 = scale / Real.sqrt (e 0) * W 0 0 := by simp [hp]
    have p1 : p 1 - mu 1 = scale / Real.sqrt (e 0) * W 0 1 := by simp [hp]
    have hsq : (scale / Real.sqrt (e 0)) ^ 2 = scale ^ 2 / e 0 := by rw [div_pow, Real.sq_sqrt e0.le]
    have hmem : p ∈ deviationCurve mu A scale := by
      rw [← heq, mem_mixtureEllipse mu h hA hs, p0, p1, s1]
      have : e 0 * (W 0 0 * (scale / Real.sqrt (e 0) * W 0 0) + -W 1 0 * (scale / Real.sqrt (e 0) * -W 1 0)) ^ 2 +
          e 1 * (- -W 1 0 * (scale / Real.sqrt (e 0) * W 0 0) + W 0 0 * (scale / Real.sqrt (e 0) * -W 1 0)) ^ 2 =
          e 0 * (scale / Real.sqrt (e 0)) ^ 2 * (W 0 0 ^ 2 + W 1 0 ^ 2) ^ 2 := by ring
      rw [this, h1, hsq]
      field_simp
    rw [hdev, p0, p1, s1] at hmem
    have h4 : (scale / Real.sqrt (e 0)) ^ 2 * (e 0 * (W 0 0 ^ 2 - W 1 0 ^ 2) ^ 2 + e 1 * (4 * W 0 0 ^ 2 * W 1 0 ^ 2)) = scale ^ 2 := by
      rw [← hmem]; ring
    rw [hsq] at h4
    have h5 : e 0 * (W 0 0 ^ 2 - W 1 0 ^ 2) ^ 2 + e 1 * (4 * W 0 0 ^ 2 * W 1 0 ^ 2) = e 0 := by
      have hs2 : scale ^ 2 ≠ 0 := by positivity
      field_simp at h4
      linarith [h4]
    have h6 : (e 1 - e 0) * (4 * W 0 0 ^ 2 * W 1 0 ^ 2) = 0 := by
      linear_combination h5 - e 0 * (W 0 0 ^ 2 + W 1 0 ^ 2 + 1) * h1
    have hW1 : W 1 0 ≠ 0 := fun hz => n4 (by rw [s1, hz, neg_zero])
    rcases mul_eq_zero.1 h6 with h7 | h7
    · exact n2 (by linarith)
    · have : 4 * W 0 0 ^ 2 * W 1 0 ^ 2 ≠ 0 := by positivity
      exact this h7
  · intro hcase
    ext p
    rw [mem_mixtureEllipse mu h hA hs, hdev]
    set a := p 0 - mu 0
    set b := p 1 - mu 1
    have key : e 0 * (W 0 0 * a + W 0 1 * b) ^ 2 + e 1 * (-W 0 1 * a + W 0 0 * b) ^ 2 =
        e 0 * (W 0 0 * a + W 1 0 * b) ^ 2 + e 1 * (-W 1 0 * a + W 0 0 * b) ^ 2 := by
      have hd : W.det ^ 2 = 1 := by rcases s3 with h | h <;> rw [h] <;> norm_num
      rcases hcase with hc | hc | hc | hc
      · rw [s1, hc]; ring
      · rw [s1, hc]
        linear_combination e 1 * W 1 0 ^ 2 * (a ^ 2 + b ^ 2) * hd
      · rw [s1, hc]
        linear_combination W 1 0 ^ 2 * (e 0 * b ^ 2 + e 1 * a ^ 2) * hd
      · have : W 1 0 = 0 := by
          rw [s1] at hc
          rcases s3 with h | h
          · rw [h] at hc; linarith
          · rw [h] at hc; linarith
        rw [hc, this]
    rw [key]

/-- **C88** `ellipse_from_cov` draws the curve at half of `scale` standard deviations: Matplotlib's width and height are those of the whole
ellipse. -/
theorem C88_cov_ellipse_partial (xy : Fin 2 → ℝ) (h : Eigh A e W) (hA : A.PosDef) {scale : ℝ} (hs : 0 < scale) :
    ellipseCurve (ellipseFromCov xy e W scale).xy (ellipseFromCov xy e W scale).width (ellipseFromCov xy e W scale).height
        (ellipseFromCov xy e W scale).angle = deviationCurve xy A⁻¹ (scale / 2) := by
  have e0 := h.pos hA 0
  have e1 := h.pos hA 1
  obtain ⟨h1, h2, h3⟩ := h.entries
  have ha : (ellipseFromCov xy e W scale).angle * Real.pi / 180 = arctan2 (W 1 0) (W 0 0) := by
    show arctan2 (W 1 0) (W 0 0) * 180 / Real.pi * Real.pi / 180 = _
    have := Real.pi_ne_zero
    field_simp
  have hn : ‖(⟨W 0 0, W 1 0⟩ : ℂ)‖ = 1 := by
    rw [Complex.norm_def, Complex.normSq_apply]
    show Real.sqrt (W 0 0 * W 0 0 + W 1 0 * W 1 0) = 1
    rw [← sq, ← sq, h1, Real.sqrt_one]
  have h0 : (⟨W 0 0, W 1 0⟩ : ℂ) ≠ 0 := fun h0 => by rw [h0, norm_zero] at hn; exact zero_ne_one hn
  have k2 : Real.cos ((ellipseFromCov xy e W scale).angle * Real.pi / 180) = W 0 0 := by
    rw [ha, arctan2, Complex.cos_arg h0, hn, div_one]
  have k3 : Real.sin ((ellipseFromCov xy e W scale).angle * Real.pi / 180) = W 1 0 := by
    rw [ha, arctan2, Complex.sin_arg, hn, div_one]
  -- the inverse has the same eigenvectors
  have hinv : ∀ d : Fin 2 → ℝ, d ⬝ᵥ (A⁻¹ *ᵥ d) = 1 / e 0 * (W 0 0 * d 0 + W 1 0 * d 1) ^ 2 + 1 / e 1 * (-W 1 0 * d 0 + W 0 0 * d 1) ^ 2 := by
    intro d
    have hdet : IsUnit A.det := by rw [h.det]; exact (mul_pos e0 e1).ne'.isUnit
    set y := A⁻¹ *ᵥ d with hy
    have hd : d = A *ᵥ y := by rw [hy, mulVec_mulVec, mul_nonsing_inv _ hdet, one_mulVec]
    have f1 : y ⬝ᵥ (A *ᵥ y) = _ := h.form y
    -- the coordinates of `d` are those of `y` times the eigenvalues
    have a00 := h.form
    have l0 : W 0 0 * d 0 + W 1 0 * d 1 = e 0 * (W 0 0 * y 0 + W 1 0 * y 1) := by
      have sym : ∀ u : Fin 2 → ℝ, ∀ v, u ⬝ᵥ (A *ᵥ v) = v ⬝ᵥ (A *ᵥ u) := fun u v => by
        have hT : Aᵀ = A := by have := hA.1; rwa [IsHermitian, conjTranspose_eq_transpose_of_trivial] at this
        rw [dotProduct_mulVec, ← mulVec_transpose, hT, dotProduct_comm]
      have := sym (fun r => W r 0) y
      rw [h.eigen 0, ← hd] at this
      simp only [dotProduct, Fin.sum_univ_two, Pi.smul_apply, smul_eq_mul] at this
      linear_combination this
    have l1 : -W 1 0 * d 0 + W 0 0 * d 1 = e 1 * (-W 1 0 * y 0 + W 0 0 * y 1) := by
      obtain ⟨s1, s2, s3⟩ := h.second
      have hT : Aᵀ = A := by have := hA.1; rwa [IsHermitian, conjTranspose_eq_transpose_of_trivial] at this
      have sym : ∀ u : Fin 2 → ℝ, ∀ v, u ⬝ᵥ (A *ᵥ v) = v ⬝ᵥ (A *ᵥ u) := fun u v => by
        rw [dotProduct_mulVec, ← mulVec_transpose, hT, dotProduct_comm]
      have := sym (fun r => W r 1) y
      rw [h.eigen 1, ← hd] at this
      simp only [dotProduct, Fin.sum_univ_two, Pi.smul_apply, smul_eq_mul] at this
      rw [s1, s2] at this
      have hdd : W.det ^ 2 = 1 := by rcases s3 with h | h <;> rw [h] <;> norm_num
      linear_combination W.det * this - (-W 1 0 * d 0 + W 0 0 * d 1 - e 1 * (-W 1 0 * y 0 + W 0 0 * y 1)) * hdd
    have : d ⬝ᵥ y = y ⬝ᵥ (A *ᵥ y) := by rw [← hd, dotProduct_comm]
    rw [this, f1, l0, l1]
    field_simp
  ext p
  have w0 : (ellipseFromCov xy e W scale).width = scale * Real.sqrt (e 0) := rfl
  have w1 : (ellipseFromCov xy e W scale).height = scale * Real.sqrt (e 1) := rfl
  have hxy : (ellipseFromCov xy e W scale).xy = xy := rfl
  rw [mem_ellipseCurve (by rw [w0]; positivity) (by rw [w1]; positivity) k2 k3, w0, w1, hxy]
  unfold deviationCurve
  rw [Set.mem_ofPred_eq, hinv]
  show _ ↔ 1 / e 0 * (W 0 0 * (p 0 - xy 0) + W 1 0 * (p 1 - xy 1)) ^ 2 + 1 / e 1 * (-W 1 0 * (p 0 - xy 0) + W 0 0 * (p 1 - xy 1)) ^ 2 = _
  have q : ∀ x : ℝ, 0 < x → (scale * Real.sqrt x / 2) ^ 2 = scale ^ 2 * x / 4 := fun x hx => by
    rw [div_pow, mul_pow, Real.sq_sqrt hx.le]; norm_num
  rw [q _ e0, q _ e1]
  constructor
  · intro hh
    field_simp at hh ⊢
    linarith
  · intro hh
    field_simp at hh ⊢
    linarith

/-- **C88** So it is not the curve at `scale` standard deviations, for any covariance matrix and any scale (finding). -/
theorem C88_cov_ellipse_refuted (xy : Fin 2 → ℝ) (h : Eigh A e W) (hA : A.PosDef) {scale : ℝ} (hs : 0 < scale) :
    ellipseCurve (ellipseFromCov xy e W scale).xy (ellipseFromCov xy e W scale).width (ellipseFromCov xy e W scale).height
        (ellipseFromCov xy e W scale).angle ≠ deviationCurve xy A⁻¹ scale := by
  intro heq
  have hc := C88_cov_ellipse_partial xy h hA hs
  obtain ⟨p, hp⟩ : (ellipseCurve (ellipseFromCov xy e W scale).xy (ellipseFromCov xy e W scale).width (ellipseFromCov xy e W scale).height
      (ellipseFromCov xy e W scale).angle).Nonempty := by
    unfold ellipseCurve
    exact ⟨![_, _], 0, rfl, rfl⟩
  have h1 : (p - xy) ⬝ᵥ (A⁻¹ *ᵥ (p - xy)) = scale ^ 2 := by rw [heq] at hp; exact hp
  have h2 : (p - xy) ⬝ᵥ (A⁻¹ *ᵥ (p - xy)) = (scale / 2) ^ 2 := by rw [hc] at hp; exact hp
  rw [h1] at h2
  have : 0 < scale ^ 2 := by positivity
  linarith [h2, show (scale / 2) ^ 2 = scale ^ 2 / 4 by ring]

/-- **C88** `ellipse_from_precision` likewise, given the eigenvectors of the inverse of the precision matrix -/
theorem C88_precision_ellipse_partial (xy : Fin 2 → ℝ) {L : Matrix (Fin 2) (Fin 2) ℝ} (h : Eigh L⁻¹ e W) (hL : L.PosDef) {scale : ℝ}
    (hs : 0 < scale) :
    ellipseCurve (ellipseFromCov xy e W scale).xy (ellipseFromCov xy e W scale).width (ellipseFromCov xy e W scale).height
        (ellipseFromCov xy e W scale).angle = deviationCurve xy L (scale / 2) := by
  have := C88_cov_ellipse_partial xy h hL.inv hs
  rwa [nonsing_inv_nonsing_inv L ((isUnit_iff_isUnit_det L).1 hL.isUnit)] at this

/-- A matrix with positive eigenvalues is positive definite -/
theorem Spec.Eigh.posDef (h : Eigh A e W) (hA : A 0 1 = A 1 0) (he : ∀ i, 0 < e i) : A.PosDef := by
  refine PosDef.of_dotProduct_mulVec_pos ?_ fun x hx => ?_
  · ext i j
    fin_cases i <;> fin_cases j <;> simp [conjTranspose_apply, hA]
  · rw [star_trivial, h.form]
    have h0 := he 0
    have h1 := he 1
    obtain ⟨k1, -, -⟩ := h.entries
    by_contra hneg
    have q0 : (W 0 0 * x 0 + W 1 0 * x 1) ^ 2 = 0 := by
      have a := sq_nonneg (W 0 0 * x 0 + W 1 0 * x 1)
      have b := sq_nonneg (-W 1 0 * x 0 + W 0 0 * x 1)
      by_contra hne
      exact hneg (add_pos_of_pos_of_nonneg (mul_pos h0 (lt_of_le_of_ne a (Ne.symm hne))) (mul_nonneg h1.le b))
    have q1 : (-W 1 0 * x 0 + W 0 0 * x 1) ^ 2 = 0 := by
      have a := sq_nonneg (W 0 0 * x 0 + W 1 0 * x 1)
      have b := sq_nonneg (-W 1 0 * x 0 + W 0 0 * x 1)
      by_contra hne
      exact hneg (add_pos_of_nonneg_of_pos (mul_nonneg h0.le a) (mul_pos h1 (lt_of_le_of_ne b (Ne.symm hne))))
    have z0 := pow_eq_zero_iff (two_ne_zero) |>.1 q0
    have z1 := pow_eq_zero_iff (two_ne_zero) |>.1 q1
    apply hx
    funext i
    fin_cases i
    · show x 0 = 0
      linear_combination W 0 0 * z0 - W 1 0 * z1 - x 0 * k1
    · show x 1 = 0
      linear_combination W 1 0 * z0 + W 0 0 * z1 - x 1 * k1

end

/-- A precision matrix with the eigenvalues 1 and 4 -/
noncomputable def demoPrecision : Matrix (Fin 2) (Fin 2) ℝ := !![52 / 25, -(36 / 25); -(36 / 25), 73 / 25]
/-- Eigenvectors that form a rotation -/
noncomputable def demoRotation : Matrix (Fin 2) (Fin 2) ℝ := !![4 / 5, -(3 / 5); 3 / 5, 4 / 5]
/-- The same eigenvectors, one with the other sign -/
noncomputable def demoReflection : Matrix (Fin 2) (Fin 2) ℝ := !![4 / 5, 3 / 5; 3 / 5, -(4 / 5)]

theorem demo_eigh_rotation : Eigh demoPrecision ![1, 4] demoRotation where
  orthonormal := by
    ext i j
    fin_cases i <;> fin_cases j <;> norm_num [demoRotation, Matrix.mul_apply, Fin.sum_univ_two]
  eigen i := by
    funext j
    fin_cases i <;> fin_cases j <;> norm_num [demoPrecision, demoRotation, mulVec, dotProduct, Fin.sum_univ_two]
  sorted := by norm_num

theorem demo_eigh_reflection : Eigh demoPrecision ![1, 4] demoReflection where
  orthonormal := by
    ext i j
    fin_cases i <;> fin_cases j <;> norm_num [demoReflection, Matrix.mul_apply, Fin.sum_univ_two]
  eigen i := by
    funext j
    fin_cases i <;> fin_cases j <;> norm_num [demoPrecision, demoReflection, mulVec, dotProduct, Fin.sum_univ_two]
  sorted := by norm_num

theorem demoPrecision_posDef : demoPrecision.PosDef :=
  demo_eigh_rotation.posDef rfl fun i => by fin_cases i <;> norm_num

/-- **C88** For one precision matrix there are two results of `eigh` that differ in the sign of an eigenvector: with one of them
`gaussian_mixture_2d` draws the right ellipse and with the other a wrong one (finding). -/
theorem C88_mixture_ellipse_refuted :
    ∃ (A : Matrix (Fin 2) (Fin 2) ℝ) (e : Fin 2 → ℝ) (W W' : Matrix (Fin 2) (Fin 2) ℝ), A.PosDef ∧ Eigh A e W ∧ Eigh A e W' ∧
      ∀ mu (scale : ℝ), 0 < scale →
        ellipseCurve (mixtureEllipse mu e W scale).xy (mixtureEllipse mu e W scale).width (mixtureEllipse mu e W scale).height
          (mixtureEllipse mu e W scale).angle ≠ deviationCurve mu A scale ∧
        ellipseCurve (mixtureEllipse mu e W' scale).xy (mixtureEllipse mu e W' scale).width (mixtureEllipse mu e W' scale).height
          (mixtureEllipse mu e W' scale).angle = deviationCurve mu A scale := by
  refine ⟨demoPrecision, ![1, 4], demoRotation, demoReflection, demoPrecision_posDef, demo_eigh_rotation, demo_eigh_reflection,
    fun mu scale hs => ⟨fun h => ?_, ?_⟩⟩
  · have := (C88_mixture_ellipse_partial mu demo_eigh_rotation demoPrecision_posDef hs).1 h
    norm_num [demoRotation, det_fin_two] at this
  · exact (C88_mixture_ellipse_partial mu demo_eigh_reflection demoPrecision_posDef hs).2 (.inl (by norm_num [demoReflection, det_fin_two]))

example : ellipseCurve (ellipseFromCov ![1, 2] ![1, 4] demoRotation 3).xy (ellipseFromCov ![1, 2] ![1, 4] demoRotation 3).width
    (ellipseFromCov ![1, 2] ![1, 4] demoRotation 3).height (ellipseFromCov ![1, 2] ![1, 4] demoRotation 3).angle =
      deviationCurve ![1, 2] demoPrecision⁻¹ (3 / 2) :=
  C88_cov_ellipse_partial ![1, 2] demo_eigh_rotation demoPrecision_posDef (by norm_num)

example : ellipseCurve (ellipseFromCov ![1, 2] ![1, 4] demoRotation 3).xy (ellipseFromCov ![1, 2] ![1, 4] demoRotation 3).width
    (ellipseFromCov ![1, 2] ![1, 4] demoRotation 3).height (ellipseFromCov ![1, 2] ![1, 4] demoRotation 3).angle =
      deviationCurve ![1, 2] demoPrecision⁻¹ (3 / 2) :=
  C88_precision_ellipse_partial ![1, 2]
    (by rw [nonsing_inv_nonsing_inv _ ((isUnit_iff_isUnit_det _).1 demoPrecision_posDef.isUnit)]; exact demo_eigh_rotation)
    demoPrecision_posDef.inv (by norm_num)

/-- **C88** The opacity of a cluster in `gaussian_mixture_2d` is the height of its weighted density at its mean relative to the highest. -/
theorem C88_visibility {K : Nat} {A W : Fin (K + 1) → Matrix (Fin 2) (Fin 2) ℝ} {u : Fin (K + 1) → Fin 2 → ℝ} (h : ∀ k, Eigh (A k) (u k) (W k))
    (hA : ∀ k, (A k).PosDef) (logp : Fin (K + 1) → ℝ) (k : Fin (K + 1)) :
    mixtureVisibility u logp k =
      Real.exp (logp k) / (∑ j, Real.exp (logp j)) * peakDensity (A k) /
        Finset.univ.sup' Finset.univ_nonempty fun k => Real.exp (logp k) / (∑ j, Real.exp (logp j)) * peakDensity (A k) := by
  have hS : 0 < ∑ j, Real.exp (logp j) := Finset.sum_pos (fun j _ => Real.exp_pos _) Finset.univ_nonempty
  set b : Fin (K + 1) → ℝ := fun k => Real.exp (logp k) / (∑ j, Real.exp (logp j)) * peakDensity (A k) with hb
  have hv : (fun k => 1 / (2 * Real.sqrt (1 / u k 0) * (2 * Real.sqrt (1 / u k 1))) *
      Real.exp (logp k - Real.log (∑ j, Real.exp (logp j)))) = fun k => Real.pi / 2 * b k := by
    funext k
    have e0 := (h k).pos (hA k) 0
    have e1 := (h k).pos (hA k) 1
    have hpi := Real.pi_pos
    rw [hb]
    simp only [peakDensity]
    rw [(h k).det, Real.exp_sub, Real.exp_log hS, Real.sqrt_mul e0.le, Real.sqrt_div zero_le_one, Real.sqrt_div zero_le_one, Real.sqrt_one]
    have := Real.sqrt_pos.2 e0
    have := Real.sqrt_pos.2 e1
    field_simp
  have hsup : Finset.univ.sup' Finset.univ_nonempty (fun k => Real.pi / 2 * b k) = Real.pi / 2 * Finset.univ.sup' Finset.univ_nonempty b := by
    have hpi : (0 : ℝ) < Real.pi / 2 := by positivity
    apply le_antisymm
    · exact Finset.sup'_le _ _ fun j _ => mul_le_mul_of_nonneg_left (Finset.le_sup' b (Finset.mem_univ j)) hpi.le
    · obtain ⟨j, -, hj⟩ := Finset.exists_mem_eq_sup' (Finset.univ_nonempty (α := Fin (K + 1))) b
      rw [hj]
      exact Finset.le_sup' (fun k => Real.pi / 2 * b k) (Finset.mem_univ j)
  show (fun k => 1 / (2 * Real.sqrt (1 / u k 0) * (2 * Real.sqrt (1 / u k 1))) *
      Real.exp (logp k - Real.log (∑ j, Real.exp (logp j)))) k / Finset.univ.sup' Finset.univ_nonempty (fun k => 1 / (2 * Real.sqrt (1 / u k 0) * (2 * Real.sqrt (1 / u k 1))) *
      Real.exp (logp k - Real.log (∑ j, Real.exp (logp j)))) = _
  rw [hv, hsup, mul_div_mul_left _ _ (by positivity)]

example : mixtureVisibility (fun _ : Fin 1 => ![1, 4]) (fun _ => 3) 0 = 1 := by
  rw [C88_visibility (A := fun _ => demoPrecision) (W := fun _ => demoRotation) (fun _ => demo_eigh_rotation) fun _ => demoPrecision_posDef]
  simp only [Finset.sup'_const]
  refine div_self (ne_of_gt (mul_pos (div_pos (Real.exp_pos _) (Finset.sum_pos (fun _ _ => Real.exp_pos _) Finset.univ_nonempty)) ?_))
  unfold peakDensity
  rw [demo_eigh_rotation.det]
  have := Real.pi_pos
  norm_num
  positivity

/-! ### Contours -/

theorem gridPoints_length (x1 x2 : List ℝ) : (gridPoints x1 x2).length = x2.length * x1.length := by
  unfold gridPoints
  induction x2 with
  | nil => simp
  | cons b x2 ih => rw [List.flatMap_cons, List.length_append, ih, List.length_map, List.length_cons]; ring

theorem gridPoints_get (x1 x2 : List ℝ) {i j : Nat} {a b : ℝ} (ha : x1[j]? = some a) (hb : x2[i]? = some b) :
    (gridPoints x1 x2)[i * x1.length + j]? = some (a, b) := by
  have hj : j < x1.length := (List.getElem?_eq_some_iff.1 ha).1
  unfold gridPoints
  induction x2 generalizing i with
  | nil => simp at hb
  | cons b' x2 ih =>
    rw [List.flatMap_cons]
    cases i with
    | zero =>
      rw [List.getElem?_append_left (by simpa using hj), Nat.zero_mul, Nat.zero_add, List.getElem?_map, ha]
      simp only [List.getElem?_cons_zero, Option.some.injEq] at hb
      rw [hb]
      rfl
    | succ i =>
      rw [List.getElem?_append_right (by rw [List.length_map]; nlinarith), List.length_map]
      have : (i + 1) * x1.length + j - x1.length = i * x1.length + j := by
        rw [Nat.add_mul, Nat.one_mul]; omega
      rw [this]
      exact ih (by simpa using hb)

theorem contour_run (f : ℝ → ℝ → ℝ) (x y : List ℝ) : contourTables f x y = .ok
    (fun i j => (gridPoints x y)[i * y.length + j]?.map Prod.fst, fun i j => (gridPoints x y)[i * y.length + j]?.map Prod.snd,
      fun i j => (gridPoints x y)[i * y.length + j]?.map fun q => Real.exp (f q.1 q.2)) := by
  unfold contourTables reshape2
  simp only [List.length_map, gridPoints_length, mul_comm y.length, if_true, List.getElem?_map, bind, Except.bind, pure, Except.pure]

/-- **C88** If there are as many `x` as `y`, `contour` shows the density of the node. -/
theorem C88_contour_partial (f : ℝ → ℝ → ℝ) (x y : List ℝ) (n : Nat) (hx : x.length = n) (hy : y.length = n) :
    ∃ X Y P, contourTables f x y = .ok (X, Y, P) ∧
      ShowsFunction n n (fun j => x.getD j 0) (fun i => y.getD i 0) (fun a b => Real.exp (f a b)) X Y P := by
  refine ⟨_, _, _, contour_run f x y, fun i hi j hj => ?_⟩
  have ha : x[j]? = some (x.getD j 0) := by rw [List.getD_eq_getElem?_getD, List.getElem?_eq_getElem (by omega)]; rfl
  have hb : y[i]? = some (y.getD i 0) := by rw [List.getD_eq_getElem?_getD, List.getElem?_eq_getElem (by omega)]; rfl
  have := gridPoints_get x y ha hb
  rw [hx] at this
  rw [hy, this]
  exact ⟨rfl, rfl, rfl⟩

/-- **C88** In all cases every height belongs to its point: the tables list the density at all points of the grid. -/
theorem C88_contour_points (f : ℝ → ℝ → ℝ) (x y : List ℝ) :
    ∃ X Y P, contourTables f x y = .ok (X, Y, P) ∧
      (∀ i < x.length, ∀ j < y.length, ∃ a ∈ x, ∃ b ∈ y, X i j = some a ∧ Y i j = some b ∧ P i j = some (Real.exp (f a b))) ∧
      ∀ a ∈ x, ∀ b ∈ y, ∃ i < x.length, ∃ j < y.length, X i j = some a ∧ Y i j = some b ∧ P i j = some (Real.exp (f a b)) := by
  refine ⟨_, _, _, contour_run f x y, fun i hi j hj => ?_, fun a ha b hb => ?_⟩
  · have hk : i * y.length + j < y.length * x.length := by nlinarith
    have hx0 : 0 < x.length := by omega
    set k := i * y.length + j
    have h1 : k % x.length < x.length := Nat.mod_lt _ hx0
    have h2 : k / x.length < y.length := Nat.div_lt_of_lt_mul (by rw [mul_comm]; exact hk)
    have := gridPoints_get x y (List.getElem?_eq_getElem h1) (List.getElem?_eq_getElem h2)
    rw [mul_comm, Nat.div_add_mod] at this
    exact ⟨_, List.getElem_mem h1, _, List.getElem_mem h2, by simp only [this]; exact ⟨rfl, rfl, rfl⟩⟩
  · obtain ⟨q, hq⟩ := List.getElem?_of_mem ha
    obtain ⟨r, hr⟩ := List.getElem?_of_mem hb
    have hq' := (List.getElem?_eq_some_iff.1 hq).1
    have hr' := (List.getElem?_eq_some_iff.1 hr).1
    have := gridPoints_get x y hq hr
    have hy0 : 0 < y.length := by omega
    have hk : r * x.length + q < x.length * y.length := by nlinarith
    refine ⟨(r * x.length + q) / y.length, Nat.div_lt_of_lt_mul (by linarith), (r * x.length + q) % y.length, Nat.mod_lt _ hy0, ?_⟩
    rw [mul_comm _ y.length, Nat.div_add_mod]
    simp only [this]
    exact ⟨rfl, rfl, rfl⟩

/-- **C88** If there are at least two `x` and two `y`, all different, and not as many of one as of the other, then the tables of `contour` are
not those of any function on the grid: the positions in one column (or row) differ (finding). -/
theorem C88_contour_refuted (f : ℝ → ℝ → ℝ) (x y : List ℝ) (hx : x.Nodup) (hy : y.Nodup) (hx2 : 2 ≤ x.length) (hy2 : 2 ≤ y.length)
    (hne : x.length ≠ y.length) :
    ∃ X Y P, contourTables f x y = .ok (X, Y, P) ∧
      ¬ ∃ (x' y' : Nat → ℝ) (g : ℝ → ℝ → ℝ), ShowsFunction x.length y.length x' y' g X Y P := by
  refine ⟨_, _, _, contour_run f x y, ?_⟩
  rintro ⟨x', y', g, h⟩
  have hget : ∀ k, k < y.length * x.length → ∃ (h1 : k % x.length < x.length) (h2 : k / x.length < y.length),
      (gridPoints x y)[k]? = some (x[k % x.length], y[k / x.length]) := fun k hk => by
    have h1 : k % x.length < x.length := Nat.mod_lt _ (by omega)
    have h2 : k / x.length < y.length := Nat.div_lt_of_lt_mul (by rw [mul_comm]; exact hk)
    have := gridPoints_get x y (List.getElem?_eq_getElem h1) (List.getElem?_eq_getElem h2)
    rw [mul_comm, Nat.div_add_mod] at this
    exact ⟨h1, h2, this⟩
  -- the first two rows agree about the first column
  obtain ⟨a1, a2, a3⟩ := hget 0 (by nlinarith)
  obtain ⟨b1, b2, b3⟩ := hget y.length (by nlinarith)
  have h00 := (h 0 (by omega) 0 (by omega)).1
  have h10 := (h 1 (by omega) 0 (by omega)).1
  simp only [Nat.zero_mul, Nat.add_zero, Nat.one_mul, a3, b3, Option.map_some, Option.some.injEq] at h00 h10
  have hmod : y.length % x.length = 0 := by
    have := (List.Nodup.getElem_inj_iff hx).1 (h10.trans h00.symm)
    rw [this, Nat.zero_mod]
  -- the first row has one `y`
  obtain ⟨c1, c2, c3⟩ := hget (y.length - 1) (by nlinarith [Nat.sub_le y.length 1, Nat.sub_lt (by omega : 0 < y.length) one_pos])
  have g00 := (h 0 (by omega) 0 (by omega)).2.1
  have g01 := (h 0 (by omega) (y.length - 1) (by omega)).2.1
  simp only [Nat.zero_mul, Nat.add_zero, Nat.zero_add, a3, c3, Option.map_some, Option.some.injEq] at g00 g01
  have hdiv : (y.length - 1) / x.length = 0 := by
    have := (List.Nodup.getElem_inj_iff hy).1 (g01.trans g00.symm)
    rw [this, Nat.zero_div]
  have hle : y.length - 1 < x.length := by
    rcases Nat.div_eq_zero_iff.1 hdiv with h | h
    · omega
    · exact h
  have : x.length ≤ y.length := Nat.le_of_dvd (by omega) (Nat.dvd_of_mod_eq_zero hmod)
  omega

example : ∃ X Y P, contourTables (fun a b => a + b) [0, 1] [0, 1, 2] = .ok (X, Y, P) ∧
    ¬ ∃ (x' y' : Nat → ℝ) (g : ℝ → ℝ → ℝ), ShowsFunction 2 3 x' y' g X Y P :=
  C88_contour_refuted _ _ _ (by norm_num) (by norm_num) (by norm_num) (by norm_num) (by norm_num)

example : ∃ X Y P, contourTables (fun a b => a * b) [0, 1] [3, 4] = .ok (X, Y, P) ∧ P 0 1 = some (Real.exp 3) := by
  obtain ⟨X, Y, P, h, hs⟩ := C88_contour_partial (fun a b => a * b) [0, 1] [3, 4] 2 rfl rfl
  exact ⟨X, Y, P, h, by rw [(hs 0 (by norm_num) 1 (by norm_num)).2.2]; norm_num⟩

/-- **C88** The `n` contour levels are evenly spaced strictly between zero and the largest density. -/
theorem C88_levels (top : ℝ) (n : Nat) (h : 0 < top) :
    (contourLevels top n).length = n ∧ (∀ l ∈ contourLevels top n, 0 < l ∧ l < top) ∧
      ∀ k a b, (contourLevels top n)[k]? = some a → (contourLevels top n)[k + 1]? = some b → b - a = top / (n + 1) := by
  unfold contourLevels
  refine ⟨by simp, fun l hl => ?_, fun k a b ha hb => ?_⟩
  · obtain ⟨k, hk, rfl⟩ := List.mem_map.1 hl
    have hk : k < n := List.mem_range.1 hk
    have hk' : (k : ℝ) + 1 < n + 1 := by exact_mod_cast Nat.succ_lt_succ hk
    refine ⟨by positivity, ?_⟩
    rw [← mul_div_assoc, div_lt_iff₀ (by positivity)]
    nlinarith
  · rw [List.getElem?_map] at ha hb
    obtain ⟨i, hi, rfl⟩ := Option.map_eq_some_iff.1 ha
    obtain ⟨j, hj, rfl⟩ := Option.map_eq_some_iff.1 hb
    obtain ⟨_, rfl⟩ := List.getElem?_eq_some_iff.1 hi
    obtain ⟨_, rfl⟩ := List.getElem?_eq_some_iff.1 hj
    simp only [List.getElem_range]
    push_cast
    ring

example : contourLevels 8 3 = [2, 4, 6] := by
  norm_num [contourLevels, List.range_succ]

/-- **C88** `contourplot` shows the function whose values at the points of `misc.grid` it is given; other numbers of values raise. -/
theorem C88_contourplot (f : ℝ → ℝ → ℝ) (x1 x2 : List ℝ) :
    (∃ P, contourplotTable x1 x2 ((gridPoints x1 x2).map fun q => f q.1 q.2) = .ok P ∧
      ∀ i j a b, x1[j]? = some a → x2[i]? = some b → P i j = some (f a b)) ∧
    ∀ y : List ℝ, y.length ≠ x2.length * x1.length → contourplotTable x1 x2 y = .error .valueError := by
  refine ⟨⟨fun i j => ((gridPoints x1 x2).map fun q => f q.1 q.2)[i * x1.length + j]?, ?_, fun i j a b ha hb => ?_⟩, fun y hy => ?_⟩
  · unfold contourplotTable reshape2
    rw [if_pos (by rw [List.length_map, gridPoints_length])]
  · show ((gridPoints x1 x2).map fun q => f q.1 q.2)[i * x1.length + j]? = _
    rw [List.getElem?_map, gridPoints_get x1 x2 ha hb]
    rfl
  · unfold contourplotTable reshape2
    rw [if_neg hy]

example : ∃ P, contourplotTable [0, 1] [5, 6, 7] ((gridPoints [0, 1] [5, 6, 7]).map fun q => q.1 + 10 * q.2) = .ok P ∧ P 2 1 = some 71 := by
  obtain ⟨P, h, hp⟩ := (C88_contourplot (fun a b => a + 10 * b) [0, 1] [5, 6, 7]).1
  exact ⟨P, h, by rw [hp 2 1 1 7 rfl rfl]; norm_num⟩

/-! ### Error bands -/

/-- **C88** A band is drawn exactly if one of the errors is given; a missing lower error is the common error or else the upper one, and the
other way round. -/
theorem C88_band (y : ℝ) (error lower upper : Option ℝ) :
    errorBand y error lower upper =
      (lower <|> error <|> upper).bind fun l => (upper <|> error <|> lower).map fun u => (y - l, y + u) := by
  cases error <;> cases lower <;> cases upper <;> rfl

/-- **C88** `plot_gaussian` draws the mean and a band of `scale` standard deviations on both sides: for the moments of a Gaussian with mean `m`
and variance `v`. -/
theorem C88_gaussian_band (m v scale : ℝ) : gaussianBand m (v + m ^ 2) scale = some (m - scale * Real.sqrt v, m + scale * Real.sqrt v) := by
  unfold gaussianBand
  rw [C88_band, add_sub_cancel_right]
  rfl

example : gaussianBand 3 (4 + 3 ^ 2) 2 = some (-1, 7) := by
  rw [C88_gaussian_band, show (4 : ℝ) = 2 ^ 2 by norm_num, Real.sqrt_sq (by norm_num)]
  norm_num

/-! ### Hinton diagrams -/

section
variable {m n : Nat}

theorem hintonMax_ge (W : Fin (m + 1) → Fin (n + 1) → ℝ) (error : Option (Fin (m + 1) → Fin (n + 1) → ℝ)) (y : Fin (m + 1)) (x : Fin (n + 1)) :
    |W y x| + (error.elim 0 fun e => e y x) ≤ hintonMax W error none :=
  Finset.le_sup' (fun q : Fin (m + 1) × Fin (n + 1) => |W q.1 q.2| + (error.elim 0 fun e => e q.1 q.2)) (Finset.mem_univ (y, x))

/-- **C88** In a Hinton diagram with a given positive maximum, the square of each element lies in the middle of its cell and inside it, is white
exactly if the element is positive, and has the area of the absolute value relative to the maximum, at most the whole cell. -/
theorem C88_hinton (W : Fin (m + 1) → Fin (n + 1) → ℝ) {vmax : ℝ} (hv : 0 < vmax) (x : Fin (n + 1)) (y : Fin (m + 1)) :
    ∃ c, hinton W none (some vmax) x y = .ok c ∧ c.x = x + 1 ∧ c.y = y + 1 ∧ (c.white = true ↔ 0 < W y x) ∧ 0 ≤ c.side ∧ c.side ≤ 1 ∧
      c.side ^ 2 = min 1 (|W y x| / vmax) ∧ c.frame = none := by
  have hmax : hintonMax W none (some vmax) = vmax := by unfold hintonMax; simp [hv.ne']
  have hr : minOneRatio |W y x| vmax = min 1 (|W y x| / vmax) := by unfold minOneRatio; rw [if_neg hv.ne']
  have h0 : 0 ≤ min 1 (|W y x| / vmax) := le_min zero_le_one (by positivity)
  refine ⟨⟨x + 1, y + 1, Real.sqrt (minOneRatio |W y x| vmax), decide (W y x > 0), none⟩, ?_, rfl, rfl, ?_, ?_, ?_, ?_, rfl⟩
  rotate_left
  · show decide (W y x > 0) = true ↔ _
    rw [decide_eq_true_iff]
  · exact Real.sqrt_nonneg _
  · show Real.sqrt (minOneRatio |W y x| vmax) ≤ 1
    rw [hr]
    exact Real.sqrt_le_one.2 (min_le_left _ _)
  · show Real.sqrt (minOneRatio |W y x| vmax) ^ 2 = _
    rw [hr, Real.sq_sqrt h0]
  · unfold hinton
    rw [hmax]
    rfl

/-- **C88** Without a given maximum the largest element fills its cell and the areas of all squares are in proportion to the absolute values,
provided that some element is not zero. -/
theorem C88_hinton_default_partial (W : Fin (m + 1) → Fin (n + 1) → ℝ) (hW : ∃ y x, W y x ≠ 0) :
    ∃ top, 0 < top ∧ (∃ y x, |W y x| = top) ∧ (∀ y x, |W y x| ≤ top) ∧
      ∀ x y, ∃ c, hinton W none none x y = .ok c ∧ c.x = x + 1 ∧ c.y = y + 1 ∧ (c.white = true ↔ 0 < W y x) ∧ 0 ≤ c.side ∧ c.side ≤ 1 ∧
        c.side ^ 2 = |W y x| / top := by
  have hge : ∀ y x, |W y x| ≤ hintonMax W none none := fun y x => by simpa using hintonMax_ge W none y x
  have htop : 0 < hintonMax W none none := by
    obtain ⟨y, x, h⟩ := hW
    exact lt_of_lt_of_le (abs_pos.2 h) (hge y x)
  refine ⟨hintonMax W none none, htop, ?_, hge, fun x y => ?_⟩
  · obtain ⟨q, -, hq⟩ := Finset.exists_mem_eq_sup' (Finset.univ_nonempty (α := Fin (m + 1) × Fin (n + 1))) fun q => |W q.1 q.2| + (0 : ℝ)
    refine ⟨q.1, q.2, ?_⟩
    have : hintonMax W none none = |W q.1 q.2| + 0 := hq
    rw [this, add_zero]
  · obtain ⟨c, h1, h2, h3, h4, h5, h6, h7, -⟩ := C88_hinton W htop x y
    refine ⟨c, ?_, h2, h3, h4, h5, h6, ?_⟩
    · rw [← h1]
      unfold hinton
      congr 1
      show hintonMax W none none = if hintonMax W none none = 0 then _ else _
      rw [if_neg htop.ne']
    · rw [h7, min_eq_right (by rw [div_le_one htop]; exact hge y x)]

/-- **C88** A matrix of zeros is drawn as full black squares, which look like the most negative values (finding). -/
theorem C88_hinton_zero_refuted (x : Fin (n + 1)) (y : Fin (m + 1)) :
    ∃ c, hinton (fun (_ : Fin (m + 1)) (_ : Fin (n + 1)) => 0) none none x y = .ok c ∧ c.side = 1 ∧ c.white = false := by
  have hmax : hintonMax (fun (_ : Fin (m + 1)) (_ : Fin (n + 1)) => 0) none none = 0 := by
    unfold hintonMax
    simp only [abs_zero, Option.elim_none, add_zero, Finset.sup'_const]
  refine ⟨⟨x + 1, y + 1, Real.sqrt (minOneRatio |0| 0), decide ((0 : ℝ) > 0), none⟩, ?_, ?_, ?_⟩
  rotate_left
  · show Real.sqrt (minOneRatio |0| 0) = 1
    unfold minOneRatio
    rw [if_pos rfl, Real.sqrt_one]
  · show decide ((0 : ℝ) > 0) = false
    simp
  · unfold hinton
    rw [hmax]
    rfl

/-- **C88** With errors, drawing raises exactly if the error of the element is negative or its absolute value plus the error exceeds the given
maximum; otherwise the frame around the square has the area of that sum relative to the maximum, and the square fits into it. -/
theorem C88_hinton_error (W e : Fin (m + 1) → Fin (n + 1) → ℝ) {vmax : ℝ} (hv : 0 < vmax) (x : Fin (n + 1)) (y : Fin (m + 1)) :
    ((e y x < 0 ∨ vmax < |W y x| + e y x) → hinton W (some e) (some vmax) x y = .error .exception) ∧
    (0 ≤ e y x → |W y x| + e y x ≤ vmax → ∃ c f, hinton W (some e) (some vmax) x y = .ok c ∧ c.frame = some f ∧ 0 ≤ f ∧ f ≤ 1 ∧
      f ^ 2 = (|W y x| + e y x) / vmax ∧ c.side ^ 2 = |W y x| / vmax ∧ c.side ≤ f) := by
  have hmax : hintonMax W (some e) (some vmax) = vmax := by unfold hintonMax; simp [hv.ne']
  constructor
  · intro h
    unfold hinton hintonCell
    rw [hmax]
    simp only [Option.map_some]
    by_cases h0 : e y x < 0
    · simp only [h0, if_true, bind, Except.bind]
      rfl
    · have := h.resolve_left h0
      simp only [h0, gt_iff_lt, this, if_true, if_false, bind, Except.bind, pure, Except.pure]
      rfl
  · intro h0 h1
    have hq : (|W y x| + e y x) / vmax ≤ 1 := by rw [div_le_one hv]; exact h1
    have hq0 : 0 ≤ (|W y x| + e y x) / vmax := by positivity
    have hw : |W y x| / vmax ≤ 1 := by rw [div_le_one hv]; linarith
    have hs : Real.sqrt (minOneRatio |W y x| vmax) = Real.sqrt (|W y x| / vmax) := by
      unfold minOneRatio; rw [if_neg hv.ne', min_eq_right hw]
    have hf : minOneSqrt (|W y x| + e y x) vmax = Real.sqrt ((|W y x| + e y x) / vmax) := by
      unfold minOneSqrt; rw [if_neg hv.ne', min_eq_right (Real.sqrt_le_one.2 hq)]
    refine ⟨⟨x + 1, y + 1, Real.sqrt (minOneRatio |W y x| vmax), decide (W y x > 0), some (minOneSqrt (|W y x| + e y x) vmax)⟩,
      Real.sqrt ((|W y x| + e y x) / vmax), ?_, ?_, Real.sqrt_nonneg _, Real.sqrt_le_one.2 hq, Real.sq_sqrt hq0, ?_, ?_⟩
    · unfold hinton hintonCell
      rw [hmax]
      simp only [Option.map_some, not_lt.2 h0, gt_iff_lt, not_lt.2 h1, if_false, bind, Except.bind, pure, Except.pure]
    · show some (minOneSqrt (|W y x| + e y x) vmax) = _
      rw [hf]
    · show Real.sqrt (minOneRatio |W y x| vmax) ^ 2 = _
      rw [hs, Real.sq_sqrt (by positivity)]
    · show Real.sqrt (minOneRatio |W y x| vmax) ≤ _
      rw [hs]
      exact Real.sqrt_le_sqrt (by gcongr; linarith)

/-- **C88** Without a given maximum no element raises if no error is negative. -/
theorem C88_hinton_error_default (W e : Fin (m + 1) → Fin (n + 1) → ℝ) (he : ∀ y x, 0 ≤ e y x) (x : Fin (n + 1)) (y : Fin (m + 1)) :
    ∃ c, hinton W (some e) none x y = .ok c := by
  have hge : |W y x| + e y x ≤ hintonMax W (some e) none := hintonMax_ge W (some e) y x
  unfold hinton hintonCell
  simp only [Option.map_some, not_lt.2 (he y x), gt_iff_lt, not_lt.2 hge, if_false, bind, Except.bind, pure, Except.pure]
  exact ⟨_, rfl⟩

example : ∃ c, hinton (fun (_ _ : Fin 1) => -3) (some fun _ _ => 2) none 0 0 = .ok c :=
  C88_hinton_error_default _ _ (fun _ _ => by norm_num) 0 0

example : ∃ c, hinton (fun (_ _ : Fin 1) => 1) none (some 4) 0 0 = .ok c ∧ c.side ^ 2 = 1 / 4 := by
  obtain ⟨c, h, -, -, -, -, -, h7, -⟩ := C88_hinton (m := 0) (n := 0) (fun (_ _ : Fin 1) => 1) (vmax := 4) (by norm_num) 0 0
  exact ⟨c, h, by rw [h7]; norm_num⟩

example : ∃ c, hinton (fun (_ _ : Fin 1) => 1) (some fun _ _ => 3) (some 16) 0 0 = .ok c ∧ c.side ^ 2 = 1 / 16 := by
  obtain ⟨c, f, h, -, -, -, -, h6, -⟩ := (C88_hinton_error (m := 0) (n := 0) (fun (_ _ : Fin 1) => 1) (fun _ _ => 3) (vmax := 16) (by norm_num) 0 0).2
    (by norm_num) (by norm_num)
  exact ⟨c, h, by rw [h6]; norm_num⟩

example : ∃ c, hinton (fun (_ : Fin 1) (j : Fin 2) => if j = 0 then 1 else -4) none none 0 0 = .ok c ∧ c.white = true ∧ c.side ^ 2 = 1 / 4 := by
  obtain ⟨top, h1, ⟨y, x, h2⟩, h3, h4⟩ := C88_hinton_default_partial (m := 0) (n := 1) (fun (_ : Fin 1) (j : Fin 2) => if j = 0 then 1 else -4)
    ⟨0, 0, by simp⟩
  have ht : top = 4 := by
    have a := h3 0 1
    have b : |(if x = 0 then (1 : ℝ) else -4)| ≤ 4 := by split <;> norm_num
    simp only [Fin.one_eq_zero_iff] at a
    norm_num at a
    exact le_antisymm (h2 ▸ b) a
  obtain ⟨c, c1, -, -, c4, -, -, c7⟩ := h4 0 0
  refine ⟨c, c1, c4.2 (by simp), ?_⟩
  rw [c7, ht]
  norm_num

example : hinton (fun (_ _ : Fin 1) => 1) (some fun _ _ => 2) (some 2) 0 0 = .error .exception :=
  (C88_hinton_error _ _ (by norm_num) 0 0).1 (.inr (by norm_num))

end

end Verif
