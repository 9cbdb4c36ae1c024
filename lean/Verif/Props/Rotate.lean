import Verif.Model.Rotate
import Verif.Props.GaussianChainMoments
import Mathlib.Analysis.Matrix.PosDef
import Mathlib.LinearAlgebra.Matrix.Kronecker

/-!
# C46: rotating or translating a Gaussian posterior keeps parameters and moments consistent
-/

namespace Verif
open Matrix

/-- The stored moments and the stored normaliser are those which recomputing them from the stored parameters gives. -/
def Spec.StateConsistent {I : Type*} (mom : (I → ℝ) → I → ℝ) (cgf : (I → ℝ) → ℝ) (s : ExpState I) : Prop :=
  s.u = mom s.phi ∧ s.g = cgf s.phi

open Spec

section
variable {ι : Type*} [Fintype ι] [DecidableEq ι]

theorem mkG_g0 (a : ι → ℝ) (A : Matrix ι ι ℝ) : g0 (mkG a A) = a := rfl
theorem mkG_g1 (a : ι → ℝ) (A : Matrix ι ι ℝ) : g1 (mkG a A) = A := rfl
theorem mkG_eta (u : GIx ι → ℝ) : mkG (g0 u) (g1 u) = u := by
  funext k; rcases k with i | ⟨i, j⟩ <;> rfl
theorem mkGG_eta (u : GGIx ι → ℝ) : mkGG (gg0 u) (gg1 u) (gg2 u) (gg3 u) = u := by
  funext k; rcases k with (i | ⟨i, j⟩) | (_ | _) <;> rfl

theorem vecMulVec_rotate (K : Matrix ι ι ℝ) (x y : ι → ℝ) :
    vecMulVec (K *ᵥ x) (K *ᵥ y) = K * vecMulVec x y * Kᵀ := by
  rw [mul_vecMulVec, vecMulVec_mul, vecMul_transpose]

theorem rotate_prec (K : Matrix ι ι ℝ) (P : Matrix ι ι ℝ) : (-2 : ℝ) • (K⁻¹ᵀ * P * K⁻¹) = K⁻¹ᵀ * ((-2 : ℝ) • P) * K⁻¹ := by
  rw [Matrix.mul_smul, Matrix.smul_mul]

theorem rotate_inv {K : Matrix ι ι ℝ} (hK : K.det ≠ 0) (L : Matrix ι ι ℝ) : (K⁻¹ᵀ * L * K⁻¹)⁻¹ = K * L⁻¹ * Kᵀ := by
  rw [Matrix.mul_inv_rev, Matrix.mul_inv_rev, nonsing_inv_nonsing_inv _ hK.isUnit, ← transpose_nonsing_inv,
    nonsing_inv_nonsing_inv _ hK.isUnit, Matrix.mul_assoc]

theorem rotate_mean {K : Matrix ι ι ℝ} (hK : K.det ≠ 0) (L : Matrix ι ι ℝ) (a : ι → ℝ) :
    (K * L⁻¹ * Kᵀ) *ᵥ (K⁻¹ᵀ *ᵥ a) = K *ᵥ (L⁻¹ *ᵥ a) := by
  rw [mulVec_mulVec, mulVec_mulVec, Matrix.mul_assoc, ← transpose_mul, nonsing_inv_mul _ hK.isUnit, transpose_one,
    Matrix.mul_one]

theorem rotate_dot {K : Matrix ι ι ℝ} (hK : K.det ≠ 0) (x a : ι → ℝ) : (K *ᵥ x) ⬝ᵥ (K⁻¹ᵀ *ᵥ a) = x ⬝ᵥ a := by
  rw [dotProduct_mulVec, vecMul_transpose, mulVec_mulVec, nonsing_inv_mul _ hK.isUnit, one_mulVec]

theorem rotate_logdet {K : Matrix ι ι ℝ} (hK : K.det ≠ 0) {L : Matrix ι ι ℝ} (hL : L.det ≠ 0) :
    Real.log (K⁻¹ᵀ * L * K⁻¹).det = Real.log L.det - 2 * Real.log K.det := by
  have h : K⁻¹.det ≠ 0 := by rw [det_nonsing_inv]; simpa using hK
  rw [det_mul, det_mul, det_transpose, Real.log_mul (mul_ne_zero h hL) h, Real.log_mul h hL, det_nonsing_inv]
  simp only [Ring.inverse_eq_inv', Real.log_inv]
  ring

theorem rotate_posDef {K : Matrix ι ι ℝ} (hK : K.det ≠ 0) {L : Matrix ι ι ℝ} (hL : L.PosDef) : (K⁻¹ᵀ * L * K⁻¹).PosDef := by
  have hu : IsUnit K⁻¹ := by
    rw [Matrix.isUnit_iff_isUnit_det, det_nonsing_inv]
    simpa using hK
  have := hL.conjTranspose_mul_mul_same (B := K⁻¹) (mulVec_injective_of_isUnit hu)
  rwa [conjTranspose_eq_transpose_of_trivial] at this

/-- Rotating the parameters rotates the moments. -/
theorem rotate_core {K : Matrix ι ι ℝ} (hK : K.det ≠ 0) (phi : GIx ι → ℝ) (h : ((-2 : ℝ) • g1 phi).det ≠ 0) :
    gaussianMoments (mkG (K⁻¹ᵀ *ᵥ g0 phi) (K⁻¹ᵀ * g1 phi * K⁻¹))
        = mkG (K *ᵥ g0 (gaussianMoments phi)) (K * g1 (gaussianMoments phi) * Kᵀ)
      ∧ gaussianCgf (mkG (K⁻¹ᵀ *ᵥ g0 phi) (K⁻¹ᵀ * g1 phi * K⁻¹)) = gaussianCgf phi - Real.log K.det := by
  constructor
  · unfold gaussianMoments
    simp only [mkG_g0, mkG_g1, rotate_prec, rotate_inv hK, rotate_mean hK, vecMulVec_rotate]
    rw [Matrix.mul_add, Matrix.add_mul]
  · unfold gaussianCgf
    simp only [mkG_g0, mkG_g1, rotate_prec, rotate_inv hK, rotate_mean hK, rotate_dot hK, rotate_logdet hK h]
    ring

/-- The optional arguments are absent or right. -/
def Spec.GoodArgs (R : Matrix ι ι ℝ) (inv : Option (Matrix ι ι ℝ)) (logdet : Option ℝ) : Prop :=
  (∀ V ∈ inv, V * R = 1) ∧ ∀ l ∈ logdet, l = Real.log |R.det|

theorem goodArgs_eq {R : Matrix ι ι ℝ} {inv : Option (Matrix ι ι ℝ)} {logdet : Option ℝ} (h : GoodArgs R inv logdet) :
    inv.getD R⁻¹ = R⁻¹ ∧ logdet.getD (slogdet R) = Real.log R.det := by
  constructor
  · match inv with
    | none => rfl
    | some V => exact (inv_eq_left_inv (h.1 V rfl)).symm
  · match logdet with
    | none => rfl
    | some l => rw [Option.getD_some, h.2 l rfl, Real.log_abs]

/-- **C46** After `Gaussian.rotate` the moments and the normaliser are those of the parameters, and the precision is still
positive definite. -/
theorem C46_gaussian_rotate (R : Matrix ι ι ℝ) (hR : R.det ≠ 0) (inv : Option (Matrix ι ι ℝ)) (logdet : Option ℝ)
    (ha : GoodArgs R inv logdet) (s : ExpState (GIx ι)) (hs : StateConsistent gaussianMoments gaussianCgf s)
    (hp : ((-2 : ℝ) • g1 s.phi).PosDef) :
    StateConsistent gaussianMoments gaussianCgf (gaussianRotate R inv logdet s)
      ∧ ((-2 : ℝ) • g1 (gaussianRotate R inv logdet s).phi).PosDef := by
  obtain ⟨e1, e2⟩ := goodArgs_eq ha
  unfold gaussianRotate
  simp only [e1, e2]
  obtain ⟨hm, hc⟩ := rotate_core hR s.phi hp.det_pos.ne'
  refine ⟨⟨?_, ?_⟩, ?_⟩
  · change mkG _ _ = gaussianMoments (mkG _ _)
    rw [hm, hs.1]
  · change s.g - _ = gaussianCgf (mkG _ _)
    rw [hc, hs.2]
  · change ((-2 : ℝ) • (R⁻¹ᵀ * g1 s.phi * R⁻¹)).PosDef
    rw [rotate_prec]
    exact rotate_posDef hR hp

/-- **C46** Rotating back restores the node (no assumption on the node). -/
theorem C46_gaussian_rotate_back (R : Matrix ι ι ℝ) (hR : R.det ≠ 0) (s : ExpState (GIx ι)) :
    gaussianRotate R⁻¹ none none (gaussianRotate R none none s) = s := by
  have hu := hR.isUnit
  unfold gaussianRotate
  simp only [Option.getD_none, slogdet, nonsing_inv_nonsing_inv _ hu]
  ext1
  · change mkG (R⁻¹ *ᵥ (R *ᵥ g0 s.u)) (R⁻¹ * (R * g1 s.u * Rᵀ) * R⁻¹ᵀ) = s.u
    rw [mulVec_mulVec, nonsing_inv_mul _ hu, one_mulVec,
      show R⁻¹ * (R * g1 s.u * Rᵀ) * R⁻¹ᵀ = (R⁻¹ * R) * g1 s.u * (R⁻¹ * R)ᵀ by rw [transpose_mul]; simp only [Matrix.mul_assoc],
      nonsing_inv_mul _ hu, transpose_one, Matrix.one_mul, Matrix.mul_one, mkG_eta]
  · change mkG (Rᵀ *ᵥ (R⁻¹ᵀ *ᵥ g0 s.phi)) (Rᵀ * (R⁻¹ᵀ * g1 s.phi * R⁻¹) * R) = s.phi
    rw [mulVec_mulVec, ← transpose_mul, nonsing_inv_mul _ hu,
      show Rᵀ * (R⁻¹ᵀ * g1 s.phi * R⁻¹) * R = (R⁻¹ * R)ᵀ * g1 s.phi * (R⁻¹ * R) by rw [transpose_mul]; simp only [Matrix.mul_assoc],
      nonsing_inv_mul _ hu, transpose_one, one_mulVec, Matrix.one_mul, Matrix.mul_one, mkG_eta]
  · simp [det_nonsing_inv, Real.log_inv]

/-- **C46** Rotating one factor by `R` and the other by `R⁻ᵀ`, as `RotationOptimizer.rotate` does (`transformations.py`
lines 178-179), leaves both moments of the inner product unchanged. -/
theorem C46_opposite_rotations (R : Matrix ι ι ℝ) (hR : R.det ≠ 0) (s t : ExpState (GIx ι)) :
    let s' := gaussianRotate R (some R⁻¹) (some (slogdet R)) s
    let t' := gaussianRotate R⁻¹ᵀ (some Rᵀ) (some (-slogdet R)) t
    g0 s'.u ⬝ᵥ g0 t'.u = g0 s.u ⬝ᵥ g0 t.u ∧ frob (g1 s'.u) (g1 t'.u) = frob (g1 s.u) (g1 t.u) := by
  have hu := hR.isUnit
  have key : ∀ A B : Matrix ι ι ℝ, frob A B = (A * Bᵀ).trace := by
    intro A B
    simp [frob, Matrix.trace, Matrix.mul_apply]
  refine ⟨rotate_dot hR _ _, ?_⟩
  change frob (R * g1 s.u * Rᵀ) (R⁻¹ᵀ * g1 t.u * R⁻¹ᵀᵀ) = _
  rw [key, key, transpose_transpose, transpose_mul, transpose_mul, transpose_transpose]
  rw [show R * g1 s.u * Rᵀ * (R⁻¹ᵀ * ((g1 t.u)ᵀ * R⁻¹)) = R * g1 s.u * (R⁻¹ * R)ᵀ * (g1 t.u)ᵀ * R⁻¹ by
    rw [transpose_mul]; simp only [Matrix.mul_assoc], nonsing_inv_mul _ hu, transpose_one, Matrix.mul_one,
    trace_mul_comm, show R⁻¹ * (R * g1 s.u * (g1 t.u)ᵀ) = (R⁻¹ * R) * g1 s.u * (g1 t.u)ᵀ by simp only [Matrix.mul_assoc],
    nonsing_inv_mul _ hu, Matrix.one_mul]

/-- and the arguments which it gives to the second factor are right. -/
theorem C46_opposite_args (R : Matrix ι ι ℝ) (hR : R.det ≠ 0) : R⁻¹ᵀ.det ≠ 0 ∧ GoodArgs R⁻¹ᵀ (some Rᵀ) (some (-slogdet R)) := by
  have hu := hR.isUnit
  refine ⟨by rw [det_transpose, det_nonsing_inv]; simpa using hR, ?_, ?_⟩
  · rintro V ⟨⟩
    rw [← transpose_mul, nonsing_inv_mul _ hu, transpose_one]
  · rintro l ⟨⟩
    rw [Real.log_abs, det_transpose, det_nonsing_inv, Ring.inverse_eq_inv', Real.log_inv]
    rfl

/-! ### translations -/

theorem dot_symm {L : Matrix ι ι ℝ} (hL : Lᵀ = L) (x y : ι → ℝ) : x ⬝ᵥ (L *ᵥ y) = y ⬝ᵥ (L *ᵥ x) := by
  rw [dotProduct_mulVec, ← mulVec_transpose, hL, dotProduct_comm]

/-- **C46** After `translate` the moments and the normaliser are those of the parameters. -/
theorem C46_gaussian_translate (b : ι → ℝ) (s : ExpState (GIx ι)) (hs : StateConsistent gaussianMoments gaussianCgf s)
    (hp : ((-2 : ℝ) • g1 s.phi).PosDef) :
    StateConsistent gaussianMoments gaussianCgf (gaussianTranslate b s)
      ∧ (gaussianTranslate b s).u = mkG (g0 s.u + b) ((g1 s.u - vecMulVec (g0 s.u) (g0 s.u)) + vecMulVec (g0 s.u + b) (g0 s.u + b)) := by
  have hu := hp.det_pos.ne'.isUnit
  have hsy := posDef_transpose hp
  obtain ⟨u, phi, g⟩ := s
  obtain ⟨h1, h2⟩ := hs
  simp only at h1 h2 hp hu hsy
  subst h1 h2
  have hmu : ((-2 : ℝ) • g1 phi)⁻¹ *ᵥ (g0 phi + ((-2 : ℝ) • g1 phi) *ᵥ b) = ((-2 : ℝ) • g1 phi)⁻¹ *ᵥ g0 phi + b := by
    rw [mulVec_add, mulVec_mulVec, nonsing_inv_mul _ hu, one_mulVec]
  refine ⟨⟨?_, ?_⟩, ?_⟩
  · change mkG _ _ = gaussianMoments (mkG _ _)
    unfold gaussianMoments
    simp only [mkG_g0, mkG_g1, hmu]
    congr 1
    ext i j
    simp [vecMulVec_apply]
    ring
  · change gaussianCgf phi + _ = gaussianCgf (mkG _ _)
    unfold gaussianCgf gaussianMoments
    simp only [mkG_g0, mkG_g1, hmu]
    generalize hL : (-2 : ℝ) • g1 phi = L at *
    have e : g0 phi = L *ᵥ (L⁻¹ *ᵥ g0 phi) := by rw [mulVec_mulVec, mul_nonsing_inv _ hu, one_mulVec]
    generalize L⁻¹ *ᵥ g0 phi = mu at *
    rw [e]
    simp only [add_dotProduct, dotProduct_add]
    rw [dot_symm hsy b mu]
    ring
  · change mkG _ _ = mkG _ _
    congr 1
    ext i j
    simp [vecMulVec_apply, gaussianMoments, mkG_g0, mkG_g1]
    ring

/-- **C46** Translating back restores the node. -/
theorem C46_gaussian_translate_back (b : ι → ℝ) (s : ExpState (GIx ι)) (hp : ((-2 : ℝ) • g1 s.phi).PosDef) :
    gaussianTranslate (-b) (gaussianTranslate b s) = s := by
  have hsy := posDef_transpose hp
  ext1
  · refine Eq.trans ?_ (mkG_eta s.u)
    change mkG (g0 s.u + b + -b) _ = _
    congr 1
    · simp
    · ext i j
      simp [vecMulVec_apply, gaussianTranslate, mkG_g0, mkG_g1]
      ring
  · refine Eq.trans ?_ (mkG_eta s.phi)
    change mkG (g0 s.phi + ((-2 : ℝ) • g1 s.phi) *ᵥ b + ((-2 : ℝ) • g1 s.phi) *ᵥ (-b)) _ = _
    rw [mulVec_neg, add_neg_cancel_right]
    rfl
  · change s.g + -0.5 * (b ⬝ᵥ ((-2 : ℝ) • g1 s.phi) *ᵥ b + 2 * (g0 s.u ⬝ᵥ ((-2 : ℝ) • g1 s.phi) *ᵥ b))
      + -0.5 * (-b ⬝ᵥ ((-2 : ℝ) • g1 s.phi) *ᵥ (-b) + 2 * ((g0 s.u + b) ⬝ᵥ ((-2 : ℝ) • g1 s.phi) *ᵥ (-b))) = s.g
    generalize (-2 : ℝ) • g1 s.phi = L at *
    simp only [mulVec_neg, dotProduct_neg, neg_dotProduct, add_dotProduct]
    ring

/-! ### Gaussian-gamma -/

theorem ggMu_rotate {R : Matrix ι ι ℝ} (hR : R.det ≠ 0) (phi : GGIx ι → ℝ) :
    ggMu (mkGG (R⁻¹ᵀ *ᵥ gg0 phi) (R⁻¹ᵀ * gg1 phi * R⁻¹) (gg2 phi) (gg3 phi)) = R *ᵥ ggMu phi := by
  change ((-2 : ℝ) • (R⁻¹ᵀ * gg1 phi * R⁻¹))⁻¹ *ᵥ (R⁻¹ᵀ *ᵥ gg0 phi) = R *ᵥ (_ *ᵥ gg0 phi)
  rw [rotate_prec, rotate_inv hR, rotate_mean hR]

theorem ggB_rotate {R : Matrix ι ι ℝ} (hR : R.det ≠ 0) (phi : GGIx ι → ℝ) :
    ggB (mkGG (R⁻¹ᵀ *ᵥ gg0 phi) (R⁻¹ᵀ * gg1 phi * R⁻¹) (gg2 phi) (gg3 phi)) = ggB phi := by
  unfold ggB
  rw [ggMu_rotate hR]
  change -gg2 phi - 0.5 * ((R *ᵥ ggMu phi) ⬝ᵥ (R⁻¹ᵀ *ᵥ gg0 phi)) = _
  rw [rotate_dot hR]

/-- **C46** `GaussianGamma.rotate` -/
theorem C46_gaussian_gamma_rotate (R : Matrix ι ι ℝ) (hR : R.det ≠ 0) (inv : Option (Matrix ι ι ℝ)) (logdet : Option ℝ)
    (ha : GoodArgs R inv logdet) (s : ExpState (GGIx ι)) (hs : StateConsistent ggMoments ggCgf s)
    (hp : ((-2 : ℝ) • gg1 s.phi).PosDef) :
    StateConsistent ggMoments ggCgf (ggRotate R inv logdet s) ∧ ((-2 : ℝ) • gg1 (ggRotate R inv logdet s).phi).PosDef
      ∧ ggB (ggRotate R inv logdet s).phi = ggB s.phi := by
  obtain ⟨e1, e2⟩ := goodArgs_eq ha
  obtain ⟨u, phi, g⟩ := s
  obtain ⟨h1, h2⟩ := hs
  simp only at h1 h2 hp
  subst h1 h2
  unfold ggRotate
  simp only [e1, e2]
  refine ⟨⟨?_, ?_⟩, ?_, ggB_rotate hR _⟩
  · change mkGG _ _ _ _ = ggMoments (mkGG _ _ _ _)
    unfold ggMoments
    simp only [ggB_rotate hR, ggMu_rotate hR]
    change mkGG (R *ᵥ ((gg3 phi / ggB phi) • ggMu phi))
        (R * (((-2 : ℝ) • gg1 phi)⁻¹ + (gg3 phi / ggB phi) • vecMulVec (ggMu phi) (ggMu phi)) * Rᵀ) _ _
      = mkGG ((gg3 phi / ggB phi) • R *ᵥ ggMu phi) (((-2 : ℝ) • (R⁻¹ᵀ * gg1 phi * R⁻¹))⁻¹
        + (gg3 phi / ggB phi) • vecMulVec (R *ᵥ ggMu phi) (R *ᵥ ggMu phi)) _ _
    rw [rotate_prec, rotate_inv hR, vecMulVec_rotate, mulVec_smul, Matrix.mul_add, Matrix.add_mul, Matrix.mul_smul, Matrix.smul_mul]
    rfl
  · change ggCgf phi - _ = ggCgf (mkGG _ _ _ _)
    unfold ggCgf
    rw [ggB_rotate hR]
    change _ = 0.5 * Real.log ((-2 : ℝ) • (R⁻¹ᵀ * gg1 phi * R⁻¹)).det + gg3 phi * Real.log (ggB phi) - gammaln (gg3 phi)
    rw [rotate_prec, rotate_logdet hR hp.det_pos.ne']
    ring
  · change ((-2 : ℝ) • (R⁻¹ᵀ * gg1 phi * R⁻¹)).PosDef
    rw [rotate_prec]
    exact rotate_posDef hR hp

theorem sum_mat (L : Matrix ι ι ℝ) (x y : ι → ℝ) : ∑ i, ∑ j, L i j * x i * y j = x ⬝ᵥ (L *ᵥ y) := by
  simp only [dotProduct, mulVec, Finset.mul_sum]
  exact Finset.sum_congr rfl fun i _ => Finset.sum_congr rfl fun j _ => by ring

/-- **C46** `GaussianGamma.translate`; the shape and the rate of the gamma part stay the same -/
theorem C46_gaussian_gamma_translate (b : ι → ℝ) (s : ExpState (GGIx ι)) (hs : StateConsistent ggMoments ggCgf s)
    (hp : ((-2 : ℝ) • gg1 s.phi).PosDef) (ha : 0 < gg3 s.phi) (hb : 0 < ggB s.phi) :
    StateConsistent ggMoments ggCgf (ggTranslate b s) ∧ ggB (ggTranslate b s).phi = ggB s.phi
      ∧ ggMu (ggTranslate b s).phi = ggMu s.phi + b := by
  have hu := hp.det_pos.ne'.isUnit
  have hsy := posDef_transpose hp
  obtain ⟨u, phi, g⟩ := s
  obtain ⟨h1, h2⟩ := hs
  simp only at h1 h2 hp hu hsy ha hb
  subst h1 h2
  have ht : gg3 phi / ggB phi ≠ 0 := (div_pos ha hb).ne'
  have hx : (fun i => gg0 (ggMoments phi) i / gg2 (ggMoments phi)) = ggMu phi := by
    funext i
    change (gg3 phi / ggB phi) * ggMu phi i / (gg3 phi / ggB phi) = _
    field_simp
  unfold ggTranslate
  simp only [hx, sum_mat]
  have hmu : ggMu (mkGG (gg0 phi + ((-2 : ℝ) • gg1 phi) *ᵥ b) (gg1 phi)
      (gg2 phi + -0.5 * (b ⬝ᵥ ((-2 : ℝ) • gg1 phi) *ᵥ b + 2 * (b ⬝ᵥ ((-2 : ℝ) • gg1 phi) *ᵥ ggMu phi))) (gg3 phi))
      = ggMu phi + b := by
    change ((-2 : ℝ) • gg1 phi)⁻¹ *ᵥ (gg0 phi + ((-2 : ℝ) • gg1 phi) *ᵥ b) = _
    rw [mulVec_add, mulVec_mulVec, nonsing_inv_mul _ hu, one_mulVec]
    rfl
  have hB : ggB (mkGG (gg0 phi + ((-2 : ℝ) • gg1 phi) *ᵥ b) (gg1 phi)
      (gg2 phi + -0.5 * (b ⬝ᵥ ((-2 : ℝ) • gg1 phi) *ᵥ b + 2 * (b ⬝ᵥ ((-2 : ℝ) • gg1 phi) *ᵥ ggMu phi))) (gg3 phi))
      = ggB phi := by
    have e : gg0 phi = ((-2 : ℝ) • gg1 phi) *ᵥ ggMu phi := by
      unfold ggMu
      rw [mulVec_mulVec, mul_nonsing_inv _ hu, one_mulVec]
    unfold ggB
    rw [hmu]
    change -(gg2 phi + -0.5 * (b ⬝ᵥ ((-2 : ℝ) • gg1 phi) *ᵥ b + 2 * (b ⬝ᵥ ((-2 : ℝ) • gg1 phi) *ᵥ ggMu phi)))
      - 0.5 * ((ggMu phi + b) ⬝ᵥ (gg0 phi + ((-2 : ℝ) • gg1 phi) *ᵥ b)) = _
    rw [e]
    simp only [add_dotProduct, dotProduct_add]
    rw [dot_symm hsy (ggMu phi) b]
    ring
  refine ⟨⟨?_, ?_⟩, hB, hmu⟩
  · change mkGG _ _ _ _ = ggMoments (mkGG _ _ _ _)
    unfold ggMoments
    simp only [hB, hmu]
    change mkGG ((gg3 phi / ggB phi) • ggMu phi + (gg3 phi / ggB phi) • b)
        (((-2 : ℝ) • gg1 phi)⁻¹ + (gg3 phi / ggB phi) • vecMulVec (ggMu phi) (ggMu phi)
          + (gg3 phi / ggB phi) • (vecMulVec (ggMu phi) b + (vecMulVec (ggMu phi) b)ᵀ + vecMulVec b b)) _ _
      = mkGG ((gg3 phi / ggB phi) • (ggMu phi + b)) (((-2 : ℝ) • gg1 phi)⁻¹
          + (gg3 phi / ggB phi) • vecMulVec (ggMu phi + b) (ggMu phi + b)) _ _
    congr 1
    · rw [smul_add]
    · ext i j
      simp [vecMulVec_apply]
      ring
  · change ggCgf phi = ggCgf (mkGG _ _ _ _)
    unfold ggCgf
    rw [hB]
    rfl

end

end Verif
