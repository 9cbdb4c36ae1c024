import Verif.Model.RandomUtils
import Verif.Spec.Sphere
import Mathlib.LinearAlgebra.Matrix.PosDef
import Mathlib.LinearAlgebra.Matrix.Charpoly.Coeff
import Mathlib.Data.Real.StarOrdered
import Mathlib.Analysis.Matrix.PosDef
import Mathlib.LinearAlgebra.UnitaryGroup
import Mathlib.Geometry.Euclidean.Angle.Unoriented.Basic
import Mathlib.Analysis.SpecialFunctions.Integrals.Basic
import Mathlib.MeasureTheory.Measure.Lebesgue.Basic

/-!
# C73: random matrices and random points of the sphere are what their names say
-/

namespace Verif
open Spec Matrix MeasureTheory

theorem gram_posDef {D nu : ℕ} (C : Matrix (Fin D) (Fin nu) ℝ) (h : LinearIndependent ℝ C.row) : (C * Cᵀ).PosDef := by
  rw [← conjTranspose_eq_transpose_of_trivial]
  exact PosDef.mul_conjTranspose_self _ (vecMul_injective_iff.2 h)

theorem gram_det {D nu : ℕ} (C : Matrix (Fin D) (Fin nu) ℝ) :
    ((1 / (nu : ℝ)) • (C * Cᵀ)).det ≠ 0 ↔ LinearIndependent ℝ C.row := by
  constructor
  · intro h
    rw [← vecMul_injective_iff]
    intro v w hvw
    have hu : IsUnit ((1 / (nu : ℝ)) • (C * Cᵀ)) := (isUnit_iff_isUnit_det _).2 (isUnit_iff_ne_zero.2 h)
    refine vecMul_injective_of_isUnit hu ?_
    simp only [vecMul_smul, ← vecMul_vecMul]
    simp only at hvw
    rw [hvw]
  · intro h
    rw [det_smul, Fintype.card_fin]
    refine mul_ne_zero ?_ (gram_posDef C h).det_pos.ne'
    have hc : D ≤ nu := by simpa using h.fintype_card_le_finrank
    rcases Nat.eq_zero_or_pos nu with rfl | hn
    · obtain rfl : D = 0 := by omega
      simp
    · positivity

theorem gram_card {D nu : ℕ} (C : Matrix (Fin D) (Fin nu) ℝ) (h : LinearIndependent ℝ C.row) : D ≤ nu := by
  simpa using h.fintype_card_le_finrank

/-- **C73** `random.covariance` gives, whatever is drawn, a positive definite matrix or raises; it raises only when there are
fewer degrees of freedom than dimensions or when the rows drawn are linearly dependent. -/
theorem C73_covariance {D nu : ℕ} (C : Matrix (Fin D) (Fin nu) ℝ) (K : Matrix (Fin D) (Fin D) ℝ) :
    randCovariance C = .ok K ↔
      D ≤ nu ∧ LinearIndependent ℝ C.row ∧ K.PosDef ∧ K * (C * Cᵀ) = (nu : ℝ) • (1 : Matrix (Fin D) (Fin D) ℝ) := by
  have key : LinearIndependent ℝ C.row → ((1 / (nu : ℝ)) • (C * Cᵀ))⁻¹.PosDef ∧
      ((1 / (nu : ℝ)) • (C * Cᵀ))⁻¹ * (C * Cᵀ) = (nu : ℝ) • (1 : Matrix (Fin D) (Fin D) ℝ) := by
    intro h
    have hd := (gram_det C).2 h
    rcases Nat.eq_zero_or_pos nu with rfl | hn
    · obtain rfl : D = 0 := by have := gram_card C h; omega
      exact ⟨⟨Subsingleton.elim _ _, fun x hx => absurd (Subsingleton.elim x 0) hx⟩, Subsingleton.elim _ _⟩
    · have hn' : (0 : ℝ) < nu := by exact_mod_cast hn
      refine ⟨((gram_posDef C h).smul (by positivity)).inv, ?_⟩
      have e : C * Cᵀ = (nu : ℝ) • ((1 / (nu : ℝ)) • (C * Cᵀ)) := by
        rw [smul_smul, mul_one_div_cancel hn'.ne', one_smul]
      generalize (1 / (nu : ℝ)) • (C * Cᵀ) = S at e hd
      rw [e, Matrix.mul_smul, nonsing_inv_mul _ hd.isUnit]
  unfold randCovariance
  by_cases h1 : nu < D
  · simp only [h1, if_true]
    exact ⟨fun h => (nomatch h), fun h => absurd h.1 (by omega)⟩
  · simp only [h1, if_false]
    by_cases h2 : ((1 / (nu : ℝ)) • (C * Cᵀ)).det = 0
    · simp only [h2, if_true]
      refine ⟨fun h => (nomatch h), fun h => absurd h2 ((gram_det C).2 h.2.1)⟩
    · simp only [h2, if_false]
      have hl := (gram_det C).1 h2
      constructor
      · intro h
        obtain rfl := Except.ok.inj h
        exact ⟨by omega, hl, key hl⟩
      · rintro ⟨-, -, -, h⟩
        congr 1
        have hu : IsUnit (C * Cᵀ).det := (gram_posDef C hl).det_pos.ne'.isUnit
        have h' := (key hl).2.trans h.symm
        exact ((isUnit_iff_isUnit_det _).2 hu).mul_right_cancel h'

theorem C73_covariance_raises {D nu : ℕ} (C : Matrix (Fin D) (Fin nu) ℝ) (e : PyErr) :
    randCovariance C = .error e ↔ e = .valueError ∧ (nu < D ∨ ¬ LinearIndependent ℝ C.row) := by
  unfold randCovariance
  by_cases h1 : nu < D
  · simp only [h1, if_true, true_or, and_true]
    exact ⟨fun h => (Except.error.inj h).symm, fun h => by rw [h]⟩
  · simp only [h1, if_false, false_or, ← gram_det]
    by_cases h2 : ((1 / (nu : ℝ)) • (C * Cᵀ)).det = 0
    · simp only [h2, if_true, ne_eq, not_true_eq_false, not_false_eq_true, and_true]
      exact ⟨fun h => (Except.error.inj h).symm, fun h => by rw [h]⟩
    · simp only [h2, if_false, ne_eq, not_false_eq_true, not_true_eq_false, and_false]
      exact ⟨fun h => (nomatch h), fun h => h.elim⟩

/-- **C73** `random.correlation` gives a correlation matrix unless a row of zeros is drawn: it is positive semidefinite with
ones on the diagonal (then all elements are between -1 and 1), and each element is the cosine of the angle between two draws. -/
theorem C73_correlation {D : ℕ} (X : Matrix (Fin D) (Fin D) ℝ) (hX : ∀ i, X i ≠ 0) :
    (randCorrelation X).PosSemidef ∧ (∀ i, randCorrelation X i i = 1) ∧ (∀ i j, |randCorrelation X i j| ≤ 1) ∧
      ∀ i j, randCorrelation X i j = Real.cos (InnerProductGeometry.angle (WithLp.toLp 2 (X i)) (WithLp.toLp 2 (X j))) := by
  have hs : ∀ i, Real.sqrt (∑ j, X i j ^ 2) = ‖(WithLp.toLp 2 (X i) : EuclideanSpace ℝ (Fin D))‖ := fun i => by
    rw [EuclideanSpace.norm_eq]; simp
  have hn : ∀ i, ‖(WithLp.toLp 2 (X i) : EuclideanSpace ℝ (Fin D))‖ ≠ 0 := fun i => by
    rw [norm_ne_zero_iff]
    intro h
    exact hX i (by simpa using h)
  have hcos : ∀ i j, randCorrelation X i j
      = Real.cos (InnerProductGeometry.angle (WithLp.toLp 2 (X i)) (WithLp.toLp 2 (X j))) := by
    intro i j
    rw [InnerProductGeometry.cos_angle]
    simp only [randCorrelation, mul_apply, transpose_apply, of_apply, hs, PiLp.inner_apply, RCLike.inner_apply, conj_trivial,
      Finset.sum_div]
    refine Finset.sum_congr rfl fun k _ => ?_
    have := hn i
    have := hn j
    field_simp
  refine ⟨?_, fun i => ?_, fun i j => ?_, hcos⟩
  · simp only [randCorrelation]
    rw [← conjTranspose_eq_transpose_of_trivial]
    exact posSemidef_self_mul_conjTranspose _
  · rw [hcos, InnerProductGeometry.angle_self (by simpa using hX i), Real.cos_zero]
  · rw [hcos]
    exact Real.abs_cos_le_one _

/-- **C73** `random.svd(s)` gives a matrix whose singular values are the absolute values of `s`: their squares are the
eigenvalues, with multiplicities, of the matrix multiplied by its transpose. -/
theorem C73_svd {D : ℕ} (s : Fin D → ℝ) (U V : Matrix (Fin D) (Fin D) ℝ) (hU : U ∈ Matrix.orthogonalGroup (Fin D) ℝ)
    (hV : V ∈ Matrix.orthogonalGroup (Fin D) ℝ) :
    ((randSvd s U V)ᵀ * randSvd s U V).charpoly = ∏ i, (Polynomial.X - Polynomial.C (s i ^ 2)) ∧
    (randSvd s U V * (randSvd s U V)ᵀ).charpoly = ∏ i, (Polynomial.X - Polynomial.C (s i ^ 2)) := by
  have hU' := (mem_orthogonalGroup_iff' (Fin D) ℝ).1 hU
  have hV' := (mem_orthogonalGroup_iff' (Fin D) ℝ).1 hV
  have e : randSvd s U V = U * diagonal s * Vᵀ := by
    rw [randSvd]
    congr 1
    ext i j
    rw [mul_diagonal]; rfl
  have hdd : (diagonal s * diagonal s : Matrix (Fin D) (Fin D) ℝ) = diagonal fun i => s i ^ 2 := by
    rw [diagonal_mul_diagonal]; simp only [sq]
  have h1 : ((randSvd s U V)ᵀ * randSvd s U V).charpoly = ∏ i, (Polynomial.X - Polynomial.C (s i ^ 2)) := by
    have : (randSvd s U V)ᵀ * randSvd s U V = V * ((diagonal fun i => s i ^ 2) * Vᵀ) := by
      rw [e, transpose_mul, transpose_mul, transpose_transpose, diagonal_transpose, ← hdd]
      calc _ = V * (diagonal s * ((Uᵀ * U) * (diagonal s * Vᵀ))) := by simp only [Matrix.mul_assoc]
        _ = _ := by rw [hU', Matrix.one_mul]; simp only [Matrix.mul_assoc]
    rw [this, charpoly_mul_comm, Matrix.mul_assoc, hV', Matrix.mul_one, charpoly_diagonal]
  exact ⟨h1, by rw [charpoly_mul_comm, h1]⟩

/-- **C73** `random.sphere` draws points uniformly: the probability of latitudes at most `phi` is the part of the area of the
sphere there (`u` is uniform in `[-1, 1]`, an interval of length two). -/
theorem C73_sphere (phi : ℝ) (h0 : -90 ≤ phi) (h1 : phi ≤ 90) :
    (volume {u ∈ Set.Icc (-1 : ℝ) 1 | sphereLat u ≤ phi}).toReal / 2 = southOf phi := by
  have hp := Real.pi_pos
  have e : {u ∈ Set.Icc (-1 : ℝ) 1 | sphereLat u ≤ phi} = Set.Icc (-Real.sin (phi * Real.pi / 180)) 1 := by
    ext u
    have hl : phi * Real.pi / 180 + Real.pi / 2 = phi * Real.pi / 180 - (-(Real.pi / 2)) := by ring
    have hr0 : 0 ≤ phi * Real.pi / 180 + Real.pi / 2 := by nlinarith
    have hr1 : phi * Real.pi / 180 + Real.pi / 2 ≤ Real.pi := by nlinarith
    have h2 : sphereLat u ≤ phi ↔ Real.arccos u ≤ phi * Real.pi / 180 + Real.pi / 2 := by
      rw [sphereLat, sub_le_iff_le_add, div_le_iff₀ hp]
      constructor <;> intro h <;> linarith
    have hc : Real.cos (phi * Real.pi / 180 + Real.pi / 2) = -Real.sin (phi * Real.pi / 180) := Real.cos_add_pi_div_two _
    simp only [Set.mem_ofPred_eq, Set.mem_Icc, h2, ← hc]
    constructor
    · rintro ⟨⟨h3, h4⟩, h5⟩
      refine ⟨?_, h4⟩
      rw [← Real.cos_arccos h3 h4]
      exact Real.cos_le_cos_of_nonneg_of_le_pi (Real.arccos_nonneg _) hr1 h5
    · rintro ⟨h3, h4⟩
      refine ⟨⟨(Real.neg_one_le_cos _).trans h3, h4⟩, ?_⟩
      rw [← Real.arccos_cos hr0 hr1]
      exact Real.antitone_arccos h3
  rw [e, Real.volume_Icc, ENNReal.toReal_ofReal (by have := Real.neg_one_le_sin (phi * Real.pi / 180); linarith), southOf,
    intervalIntegral.integral_const_mul, integral_cos, Real.sin_neg, Real.sin_pi_div_two]
  field_simp
  ring

theorem C73_sphere_range (u : ℝ) : -90 ≤ sphereLat u ∧ sphereLat u ≤ 90 := by
  have hp := Real.pi_pos
  have h0 := Real.arccos_nonneg u
  have h1 := Real.arccos_le_pi u
  unfold sphereLat
  constructor
  · have : 0 ≤ Real.arccos u * 180 / Real.pi := by positivity
    linarith
  · have : Real.arccos u * 180 / Real.pi ≤ 180 := by rw [div_le_iff₀ hp]; linarith
    linarith

/-- **C73** `dist_haversine` is the length of the shortest arc between the points on the sphere. -/
theorem C73_haversine (c1 c2 : ℝ × ℝ) (radius : ℝ) :
    distHaversine c1 c2 radius = radius * InnerProductGeometry.angle (spherePoint c1) (spherePoint c2) := by
  have hn : ∀ c, ‖spherePoint c‖ = 1 := by
    intro c
    rw [EuclideanSpace.norm_eq, Real.sqrt_eq_one]
    simp only [spherePoint, Fin.sum_univ_three, Real.norm_eq_abs, sq_abs]
    simp
    nlinarith [Real.sin_sq_add_cos_sq (c.1 * Real.pi / 180), Real.sin_sq_add_cos_sq (c.2 * Real.pi / 180)]
  set t := InnerProductGeometry.angle (spherePoint c1) (spherePoint c2) with ht
  have hcos : Real.cos t = inner ℝ (spherePoint c1) (spherePoint c2) := by
    rw [ht, InnerProductGeometry.cos_angle, hn, hn]; simp
  have ht0 : 0 ≤ t := InnerProductGeometry.angle_nonneg _ _
  have ht1 : t ≤ Real.pi := InnerProductGeometry.angle_le_pi _ _
  have hA : Real.sin ((c2.1 * Real.pi / 180 - c1.1 * Real.pi / 180) / 2) ^ 2
      + Real.cos (c1.1 * Real.pi / 180) * Real.cos (c2.1 * Real.pi / 180)
        * Real.sin ((c2.2 * Real.pi / 180 - c1.2 * Real.pi / 180) / 2) ^ 2 = Real.sin (t / 2) ^ 2 := by
    have hh : ∀ x : ℝ, Real.sin (x / 2) ^ 2 = (1 - Real.cos x) / 2 := by
      intro x
      have := Real.cos_sq' (x / 2)
      have h2 := Real.cos_two_mul (x / 2)
      rw [mul_div_cancel₀ x two_ne_zero] at h2
      linarith
    rw [hh, hh, hh, hcos, Real.cos_sub, Real.cos_sub]
    simp only [spherePoint, PiLp.inner_apply, Fin.sum_univ_three, RCLike.inner_apply, conj_trivial]
    simp
    ring
  have hs : 0 ≤ Real.sin (t / 2) := Real.sin_nonneg_of_nonneg_of_le_pi (by linarith) (by linarith)
  have hc : 0 ≤ Real.cos (t / 2) := Real.cos_nonneg_of_neg_pi_div_two_le_of_le (by linarith) (by linarith)
  simp only [distHaversine]
  rw [hA, ← Real.cos_sq', Real.sqrt_sq hs, Real.sqrt_sq hc, Complex.ofReal_cos, Complex.ofReal_sin,
    Complex.arg_cos_add_sin_mul_I ⟨by linarith [Real.pi_pos], by linarith [Real.pi_pos]⟩]
  ring

example : randCovariance !![2, 0; 0, 1] = .ok (!![1 / 2, 0; 0, 2] : Matrix (Fin 2) (Fin 2) ℝ) := by
  refine (C73_covariance _ _).2 ⟨le_rfl, linearIndependent_rows_iff_isUnit.2 ?_, ?_, ?_⟩
  · rw [isUnit_iff_isUnit_det, det_fin_two]; simp
  · have : (!![1 / 2, 0; 0, 2] : Matrix (Fin 2) (Fin 2) ℝ) = diagonal ![1 / 2, 2] := by
      ext i j; fin_cases i <;> fin_cases j <;> simp
    rw [this]
    exact PosDef.diagonal fun i => by fin_cases i <;> norm_num
  · ext i j; fin_cases i <;> fin_cases j <;> simp [Matrix.mul_apply, vecMul, dotProduct, Fin.sum_univ_two] <;> norm_num

example : randCovariance !![1, 2; 2, 4] = .error .valueError := by
  refine (C73_covariance_raises _ _).2 ⟨rfl, .inr ?_⟩
  rw [linearIndependent_rows_iff_isUnit, isUnit_iff_isUnit_det, det_fin_two]; norm_num

example : |randCorrelation !![1, 2; -3, 4] 0 1| ≤ 1 :=
  (C73_correlation !![1, 2; -3, 4] fun i h => by
    fin_cases i
    · simpa using congrFun h 0
    · simpa using congrFun h 0).2.2.1 0 1

example : ((randSvd ![2, 3] !![0, 1; 1, 0] 1)ᵀ * randSvd ![2, 3] !![0, 1; 1, 0] 1 : Matrix (Fin 2) (Fin 2) ℝ).charpoly
    = (Polynomial.X - Polynomial.C 4) * (Polynomial.X - Polynomial.C 9) := by
  rw [(C73_svd ![2, 3] !![0, 1; 1, 0] 1 ?_ (one_mem _)).1, Fin.prod_univ_two]
  · norm_num
  · rw [mem_orthogonalGroup_iff']
    ext i j; fin_cases i <;> fin_cases j <;> simp [Matrix.mul_apply, Fin.sum_univ_two]

/-- half of the points are in the southern hemisphere -/
example : (volume {u ∈ Set.Icc (-1 : ℝ) 1 | sphereLat u ≤ 0}).toReal / 2 = 1 / 2 := by
  rw [C73_sphere 0 (by norm_num) (by norm_num), southOf, intervalIntegral.integral_const_mul, integral_cos]
  have := Real.pi_pos
  simp
  field_simp
  norm_num

/-- from the equator to the pole -/
example : distHaversine (0, 0) (90, 50) 1 = Real.pi / 2 := by
  rw [C73_haversine, one_mul, InnerProductGeometry.angle, Real.arccos_eq_pi_div_two]
  simp [spherePoint, PiLp.inner_apply, Fin.sum_univ_three, show (90 : ℝ) * Real.pi / 180 = Real.pi / 2 by ring]

end Verif
