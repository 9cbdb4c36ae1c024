import Verif.Props.Moments
import Verif.Props.GaussianConjugacy
import Verif.Lemmas.MatrixDeriv

/-!
# C22 for the Gaussian families and Wishart: the moments are minus the gradient of `g`
-/

namespace Verif
open Spec

section
variable {ι : Type*} [Fintype ι] [DecidableEq ι]

/-- The sum of the products of the elements of two matrices. -/
def frob (A B : Matrix ι ι ℝ) : ℝ := ∑ i, ∑ j, A i j * B i j

omit [DecidableEq ι] in
theorem frob_add (A B C : Matrix ι ι ℝ) : frob (A + B) C = frob A C + frob B C := by
  simp [frob, add_mul, Finset.sum_add_distrib]

omit [DecidableEq ι] in
theorem frob_smul (c : ℝ) (A B : Matrix ι ι ℝ) : frob (c • A) B = c * frob A B := by
  simp [frob, Finset.mul_sum, mul_assoc]

omit [DecidableEq ι] in
theorem frob_outer (x : ι → ℝ) (B : Matrix ι ι ℝ) : frob (Matrix.vecMulVec x x) B = x ⬝ᵥ B.mulVec x := by
  simp only [frob, dotProduct, Matrix.mulVec, Matrix.vecMulVec_apply, Finset.mul_sum]
  refine Finset.sum_congr rfl fun i _ => Finset.sum_congr rfl fun j _ => ?_
  ring

omit [DecidableEq ι] in
theorem trace_mul_eq_frob (A B : Matrix ι ι ℝ) (hA : A.transpose = A) : (A * B).trace = frob A B := by
  simp only [Matrix.trace, frob, Matrix.diag_apply, Matrix.mul_apply]
  rw [Finset.sum_comm]
  refine Finset.sum_congr rfl fun i _ => Finset.sum_congr rfl fun j _ => ?_
  have e : A j i = A i j := congrFun (congrFun hA i) j
  rw [e]

omit [DecidableEq ι] in
theorem mkG_dotProduct (a : ι → ℝ) (A : Matrix ι ι ℝ) (d : GIx ι → ℝ) :
    mkG a A ⬝ᵥ d = a ⬝ᵥ g0 d + frob A (g1 d) := by
  simp [dotProduct, Fintype.sum_sum_type, Fintype.sum_prod_type, mkG, g0, g1, frob]

omit [DecidableEq ι] in
theorem mkGG_dotProduct (a : ι → ℝ) (A : Matrix ι ι ℝ) (b c : ℝ) (d : GGIx ι → ℝ) :
    mkGG a A b c ⬝ᵥ d = a ⬝ᵥ gg0 d + frob A (gg1 d) + (b * gg2 d + c * gg3 d) := by
  simp [dotProduct, Fintype.sum_sum_type, Fintype.sum_prod_type, mkGG, gg0, gg1, gg2, gg3, frob]

omit [DecidableEq ι] in
theorem mkW_dotProduct (A : Matrix ι ι ℝ) (b : ℝ) (d : WIx ι → ℝ) :
    mkW A b ⬝ᵥ d = frob A (w0 d) + b * w1 d := by
  simp [dotProduct, Fintype.sum_sum_type, Fintype.sum_prod_type, mkW, w0, w1, frob]

omit [Fintype ι] [DecidableEq ι] in
theorem line_smul (A B : Matrix ι ι ℝ) (c t : ℝ) : c • (A + t • B) = c • A + t • (c • B) := by
  rw [smul_add, smul_comm c t B]

/-- Gaussian, and GaussianARD with at least one variable axis -/
theorem C22_gaussian_gradient (phi : GIx ι → ℝ) (h : ((-2 : ℝ) • g1 phi).PosDef) :
    IsMinusGradient gaussianCgf phi (gaussianMoments phi) := by
  intro d
  have hd := h.det_pos
  have hs := posDef_transpose h
  have hsi : (((-2 : ℝ) • g1 phi)⁻¹).transpose = ((-2 : ℝ) • g1 phi)⁻¹ := by rw [Matrix.transpose_nonsing_inv, hs]
  have e : (fun t : ℝ => gaussianCgf (phi + t • d)) = fun t : ℝ =>
      -0.5 * (((-2 : ℝ) • g1 phi + t • ((-2 : ℝ) • g1 d))⁻¹.mulVec (g0 phi + t • g0 d) ⬝ᵥ (g0 phi + t • g0 d))
      + 0.5 * Real.log ((-2 : ℝ) • g1 phi + t • ((-2 : ℝ) • g1 d)).det := by
    funext t
    rw [← line_smul]
    rfl
  have hq := hasDerivAt_quad_inv ((-2 : ℝ) • g1 phi) ((-2 : ℝ) • g1 d) (g0 phi) (g0 d) hd.ne'.isUnit hs
  have hl := hasDerivAt_log_det ((-2 : ℝ) • g1 phi) ((-2 : ℝ) • g1 d) hd
  have hh := (hq.const_mul (-0.5)).add (hl.const_mul 0.5)
  refine hasDerivAt_of_eq hh (fun t => congrFun e t) ?_
  rw [trace_mul_eq_frob _ _ hsi, gaussianMoments, mkG_dotProduct, frob_add, frob_outer, Matrix.smul_mulVec, dotProduct_smul,
    show frob (((-2 : ℝ) • g1 phi)⁻¹) ((-2 : ℝ) • g1 d) = -2 * frob (((-2 : ℝ) • g1 phi)⁻¹) (g1 d) by
      simp only [frob, Finset.mul_sum, Matrix.smul_apply, smul_eq_mul]
      refine Finset.sum_congr rfl fun i _ => Finset.sum_congr rfl fun j _ => ?_
      ring, smul_eq_mul]
  ring

/-- GaussianARD without variable axes: the scalar equations -/
theorem C22_gaussianARD_scalar_gradient (phi : Fin 2 → ℝ) (h : phi 1 < 0) :
    IsMinusGradient ardCgf0 phi (ardMoments0 phi) := by
  intro d
  have hne : (2 * phi 1 : ℝ) ≠ 0 := by linarith [h.ne]
  have h0 := hasDerivAt_line (phi 0) (d 0)
  have h1 := (hasDerivAt_line (phi 1) (d 1)).const_mul (2 : ℝ)
  have h1' := (hasDerivAt_line (phi 1) (d 1)).const_mul (-2 : ℝ)
  have hq := ((h0.neg.div h1 (by simpa using h.ne)).const_mul (-0.5)).mul h0
  have hl := (h1'.log (by simpa using h.ne)).const_mul (0.5 : ℝ)
  refine hasDerivAt_of_eq (hq.add hl) (fun t => rfl) ?_
  have hp : phi 1 ≠ 0 := h.ne
  simp only [dotProduct, Fin.sum_univ_two, ardMoments0, Matrix.cons_val_zero, Matrix.cons_val_one, zero_mul, add_zero,
    Matrix.cons_val_fin_one, Pi.neg_apply, Pi.div_apply]
  field_simp
  ring

/-- Gaussian-gamma -/
theorem C22_gaussianGamma_gradient (phi : GGIx ι → ℝ) (h : ((-2 : ℝ) • gg1 phi).PosDef) (hb : 0 < ggB phi)
    (ha : 0 < gg3 phi) : IsMinusGradient ggCgf phi (ggMoments phi) := by
  intro d
  have hd := h.det_pos
  have hs := posDef_transpose h
  have hsi : (((-2 : ℝ) • gg1 phi)⁻¹).transpose = ((-2 : ℝ) • gg1 phi)⁻¹ := by rw [Matrix.transpose_nonsing_inv, hs]
  have hq := hasDerivAt_quad_inv ((-2 : ℝ) • gg1 phi) ((-2 : ℝ) • gg1 d) (gg0 phi) (gg0 d) hd.ne'.isUnit hs
  have hl := hasDerivAt_log_det ((-2 : ℝ) • gg1 phi) ((-2 : ℝ) • gg1 d) hd
  have hB := ((hasDerivAt_line (gg2 phi) (gg2 d)).neg).sub (hq.const_mul 0.5)
  have hB' := hasDerivAt_of_eq (G := fun t : ℝ => ggB (phi + t • d)) hB (fun t => by
    simp only [Pi.sub_apply, Pi.neg_apply]
    rw [← line_smul]
    rfl) rfl
  have e0 : ggB (phi + (0 : ℝ) • d) = ggB phi := by rw [zero_smul, add_zero]
  have hlb := hB'.log (by rw [e0]; exact hb.ne')
  have hA := (hasDerivAt_line (gg3 phi) (gg3 d)).mul hlb
  have hg := hasDerivAt_along (gg3 d) (hasDerivAt_gammaln (gg3 phi) ha)
  have hh := ((hl.const_mul 0.5).add hA).sub hg
  refine hasDerivAt_of_eq hh (fun t => ?_) ?_
  · simp only [Pi.sub_apply, Pi.add_apply, Pi.mul_apply]
    rw [← line_smul]
    rfl
  · simp only [e0, zero_mul, add_zero]
    rw [trace_mul_eq_frob _ _ hsi, ggMoments, mkGG_dotProduct, frob_add, frob_smul, frob_outer, Matrix.smul_mulVec,
      dotProduct_smul, smul_dotProduct,
      show frob (((-2 : ℝ) • gg1 phi)⁻¹) ((-2 : ℝ) • gg1 d) = -2 * frob (((-2 : ℝ) • gg1 phi)⁻¹) (gg1 d) by
        simp only [frob, Finset.mul_sum, Matrix.smul_apply, smul_eq_mul]
        refine Finset.sum_congr rfl fun i _ => Finset.sum_congr rfl fun j _ => ?_
        ring, smul_eq_mul, smul_eq_mul]
    have hm : ((-2 : ℝ) • gg1 phi)⁻¹.mulVec (gg0 phi) = ggMu phi := rfl
    rw [hm]
    field_simp
    ring

/-- Wishart -/
theorem C22_wishart_gradient (phi : WIx ι → ℝ) (h : (-w0 phi).PosDef) (hn : ((Fintype.card ι : ℝ) - 1) / 2 < w1 phi) :
    IsMinusGradient wishartCgf phi (wishartMoments phi) := by
  intro d
  have hd := h.det_pos
  have hs := posDef_transpose h
  have hsi : ((-w0 phi)⁻¹).transpose = (-w0 phi)⁻¹ := by rw [Matrix.transpose_nonsing_inv, hs]
  have hl := hasDerivAt_log_det (-w0 phi) (-w0 d) hd
  have hm : HasDerivAt (fun t : ℝ => multigammaln (w1 phi + t * w1 d) (Fintype.card ι))
      (multidigamma (w1 phi) (Fintype.card ι) * w1 d) 0 := by
    have hj : ∀ j ∈ Finset.range (Fintype.card ι), HasDerivAt (fun t : ℝ => gammaln (w1 phi + t * w1 d - 0.5 * (j : ℕ)))
        (digamma (w1 phi - 0.5 * (j : ℕ)) * w1 d) 0 := by
      intro j hj
      have h1 : j + 1 ≤ Fintype.card ι := Finset.mem_range.1 hj
      have h2 : (j : ℝ) + 1 ≤ Fintype.card ι := by exact_mod_cast h1
      have hp : 0 < w1 phi - 0.5 * (j : ℝ) := by linarith
      refine hasDerivAt_of_eq (hasDerivAt_along (w1 d) (hasDerivAt_gammaln _ hp)) (fun t => ?_) rfl
      congr 1
      ring
    have := (HasDerivAt.fun_sum hj).const_add ((Fintype.card ι : ℝ) * (Fintype.card ι - 1) / 4 * Real.log Real.pi)
    refine hasDerivAt_of_eq this (fun t => rfl) ?_
    rw [multidigamma, Finset.sum_mul]
  have hh := ((hasDerivAt_line (w1 phi) (w1 d)).mul hl).sub hm
  refine hasDerivAt_of_eq hh (fun t => ?_) ?_
  · simp only [Pi.sub_apply, Pi.mul_apply]
    rw [show -w0 phi + t • -w0 d = -w0 (phi + t • d) by
      rw [smul_neg, ← neg_add]
      rfl]
    rfl
  · simp only [zero_smul, zero_mul, add_zero]
    rw [trace_mul_eq_frob _ _ hsi, wishartMoments, mkW_dotProduct, frob_smul,
      show frob ((-w0 phi)⁻¹) (-w0 d) = -frob ((-w0 phi)⁻¹) (w0 d) by simp [frob]]
    ring

/-- Gaussian: the first and second moment identities -/
theorem C22_gaussian_identities (phi : GIx ι → ℝ) (h : ((-2 : ℝ) • g1 phi).PosDef) :
    ((-2 : ℝ) • g1 phi).mulVec (g0 (gaussianMoments phi)) = g0 phi ∧
    ((-2 : ℝ) • g1 phi) * (g1 (gaussianMoments phi)
      - Matrix.vecMulVec (g0 (gaussianMoments phi)) (g0 (gaussianMoments phi))) = 1 := by
  have hu : IsUnit ((-2 : ℝ) • g1 phi).det := h.det_pos.ne'.isUnit
  have e0 : g0 (gaussianMoments phi) = ((-2 : ℝ) • g1 phi)⁻¹.mulVec (g0 phi) := rfl
  have e1 : g1 (gaussianMoments phi)
      = ((-2 : ℝ) • g1 phi)⁻¹ + Matrix.vecMulVec (g0 (gaussianMoments phi)) (g0 (gaussianMoments phi)) := rfl
  constructor
  · rw [e0, Matrix.mulVec_mulVec, Matrix.mul_nonsing_inv _ hu, Matrix.one_mulVec]
  · rw [e1, add_sub_cancel_right, Matrix.mul_nonsing_inv _ hu]

end

/-- The hypotheses can be met, and the moments are the expected ones: a two-dimensional Gaussian with precision `2` and
`phi[0] = [2, 4]` has the mean `[1, 2]`. -/
example : ((-2 : ℝ) • g1 (mkG ![2, 4] (-(1 : Matrix (Fin 2) (Fin 2) ℝ)))).PosDef ∧
    g0 (gaussianMoments (mkG ![2, 4] (-(1 : Matrix (Fin 2) (Fin 2) ℝ)))) = ![1, 2] := by
  have e : (-2 : ℝ) • g1 (mkG ![2, 4] (-(1 : Matrix (Fin 2) (Fin 2) ℝ))) = (2 : ℝ) • 1 := by
    show (-2 : ℝ) • (-(1 : Matrix (Fin 2) (Fin 2) ℝ)) = _
    rw [smul_neg, neg_smul, neg_neg]
  have hp : ((-2 : ℝ) • g1 (mkG ![2, 4] (-(1 : Matrix (Fin 2) (Fin 2) ℝ)))).PosDef := by
    rw [e]
    exact Matrix.PosDef.one.smul (by norm_num)
  refine ⟨hp, ?_⟩
  have h := (C22_gaussian_identities _ hp).1
  rw [e, Matrix.smul_mulVec, Matrix.one_mulVec] at h
  have h' : ∀ i, 2 * g0 (gaussianMoments (mkG ![2, 4] (-(1 : Matrix (Fin 2) (Fin 2) ℝ)))) i = (![2, 4] : Fin 2 → ℝ) i :=
    fun i => congrFun h i
  funext i
  fin_cases i
  · have := h' 0
    simp only [Matrix.cons_val_zero] at this
    simp only [Fin.zero_eta, Matrix.cons_val_zero]
    linarith
  · have := h' 1
    simp only [Matrix.cons_val_one, Matrix.cons_val_fin_one] at this
    simp only [Fin.mk_one, Matrix.cons_val_one, Matrix.cons_val_fin_one]
    linarith

example : IsMinusGradient wishartCgf (mkW (-(1 : Matrix (Fin 2) (Fin 2) ℝ)) 3)
    (wishartMoments (mkW (-(1 : Matrix (Fin 2) (Fin 2) ℝ)) 3)) := by
  refine C22_wishart_gradient _ ?_ ?_
  · have e : -w0 (mkW (-(1 : Matrix (Fin 2) (Fin 2) ℝ)) 3) = 1 := neg_neg _
    rw [e]
    exact Matrix.PosDef.one
  · have e : w1 (mkW (-(1 : Matrix (Fin 2) (Fin 2) ℝ)) 3) = 3 := rfl
    rw [e, Fintype.card_fin]
    norm_num

example : IsMinusGradient ggCgf (mkGG 0 (-(1 : Matrix (Fin 2) (Fin 2) ℝ)) (-1) 3)
    (ggMoments (mkGG 0 (-(1 : Matrix (Fin 2) (Fin 2) ℝ)) (-1) 3)) := by
  refine C22_gaussianGamma_gradient _ ?_ ?_ ?_
  · have e : (-2 : ℝ) • gg1 (mkGG 0 (-(1 : Matrix (Fin 2) (Fin 2) ℝ)) (-1) 3) = (2 : ℝ) • 1 := by
      show (-2 : ℝ) • (-(1 : Matrix (Fin 2) (Fin 2) ℝ)) = _
      rw [smul_neg, neg_smul, neg_neg]
    rw [e]
    exact Matrix.PosDef.one.smul (by norm_num)
  · have e : ggB (mkGG 0 (-(1 : Matrix (Fin 2) (Fin 2) ℝ)) (-1) 3)
        = -(-1) - 0.5 * (ggMu (mkGG 0 (-(1 : Matrix (Fin 2) (Fin 2) ℝ)) (-1) 3) ⬝ᵥ 0) := rfl
    rw [e, dotProduct_zero]
    norm_num
  · show (0 : ℝ) < 3
    norm_num

end Verif
