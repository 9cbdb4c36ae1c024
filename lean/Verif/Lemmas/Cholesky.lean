import Mathlib.Analysis.Matrix.LDL
import Mathlib.LinearAlgebra.Matrix.Block
import Mathlib.LinearAlgebra.Matrix.PosDef
import Mathlib.Analysis.SpecialFunctions.Sqrt
import Mathlib.Algebra.Order.Star.Real
import Verif.Model.BlockBandedSolve

/-!
# Existence of Cholesky factors
-/

namespace Verif
open Matrix

variable {D : Nat}

theorem IsChol.det_pos {A U : Matrix (Fin D) (Fin D) ℝ} (h : IsChol A U) : 0 < U.det := by
  rw [det_of_isUpperTriangular (fun i j hij => h.upper i j hij)]
  exact Finset.prod_pos fun i _ => h.pos i

theorem IsChol.posDef {A U : Matrix (Fin D) (Fin D) ℝ} (h : IsChol A U) : A.PosDef := by
  rw [← h.eq, ← conjTranspose_eq_transpose_of_trivial]
  exact PosDef.conjTranspose_mul_self U
    (Matrix.mulVec_injective_iff_isUnit.2 ((Matrix.isUnit_iff_isUnit_det U).2 h.det_pos.ne'.isUnit))

theorem IsChol.logdet {A U : Matrix (Fin D) (Fin D) ℝ} (h : IsChol A U) :
    cholLogdet U = Real.log A.det := by
  rw [← h.eq, det_mul, det_transpose, Real.log_mul h.det_pos.ne' h.det_pos.ne', ← two_mul,
    det_of_isUpperTriangular (fun i j hij => h.upper i j hij),
    Real.log_prod (fun i _ => (h.pos i).ne')]
  rfl

theorem exists_isChol {A : Matrix (Fin D) (Fin D) ℝ} (hA : A.PosDef) : ∃ U, IsChol A U := by
  set L := LDL.lower hA with hL
  have hconj := LDL.lower_conj_diag hA
  have hLow : ∀ i j, i < j → L i j = 0 := by
    have hb : (LDL.lowerInv hA).BlockTriangular OrderDual.toDual := by
      intro i j hij
      exact LDL.lowerInv_triangular hA (OrderDual.toDual_lt_toDual.1 hij)
    have := blockTriangular_inv_of_blockTriangular hb
    intro i j hij
    exact this (OrderDual.toDual_lt_toDual.2 hij)
  have hd : ∀ i, 0 < LDL.diagEntries hA i := by
    intro i
    have h1 : (LDL.diag hA).PosDef := by
      rw [LDL.diag_eq_lowerInv_conj]
      exact hA.mul_mul_conjTranspose_same
        (Matrix.vecMul_injective_iff_isUnit.2 (isUnit_of_invertible _))
    have := h1.diag_pos (i := i)
    simpa [LDL.diag] using this
  have hdet : IsUnit L.det := by
    have : IsUnit L := by
      rw [hL, LDL.lower]
      exact (Matrix.isUnit_nonsing_inv_iff).2 (isUnit_of_invertible _)
    exact (Matrix.isUnit_iff_isUnit_det L).1 this
  have hne : ∀ i, L i i ≠ 0 := by
    rw [det_of_isLowerTriangular L (fun i j hij => hLow i j hij)] at hdet
    intro i hi
    exact hdet.ne_zero (Finset.prod_eq_zero (Finset.mem_univ i) hi)
  let d : Fin D → ℝ := fun i => SignType.sign (L i i) * Real.sqrt (LDL.diagEntries hA i)
  refine ⟨diagonal d * Lᵀ, fun i j hij => ?_, fun i => ?_, ?_⟩
  · rw [diagonal_mul, transpose_apply, hLow j i hij, mul_zero]
  · rw [diagonal_mul, transpose_apply]
    have : d i * L i i = (SignType.sign (L i i) * L i i) * Real.sqrt (LDL.diagEntries hA i) := by
      simp only [d]; ring
    rw [this, sign_mul_self]
    exact mul_pos (abs_pos.2 (hne i)) (Real.sqrt_pos.2 (hd i))
  · rw [transpose_mul, transpose_transpose, diagonal_transpose, Matrix.mul_assoc,
      ← Matrix.mul_assoc (diagonal d), diagonal_mul_diagonal, ← Matrix.mul_assoc]
    rw [conjTranspose_eq_transpose_of_trivial] at hconj
    refine Eq.trans ?_ hconj
    congr 2
    unfold LDL.diag
    congr 1
    funext i
    have h2 : ((SignType.sign (L i i) : SignType) : ℝ) * (SignType.sign (L i i) : SignType) = 1 := by
      rcases lt_or_gt_of_ne (hne i) with h | h
      · simp [sign_neg h]
      · simp [sign_pos h]
    calc d i * d i = (((SignType.sign (L i i) : SignType) : ℝ) * (SignType.sign (L i i) : SignType)) *
          (Real.sqrt (LDL.diagEntries hA i) * Real.sqrt (LDL.diagEntries hA i)) := by
            simp only [d]; ring
      _ = LDL.diagEntries hA i := by rw [h2, Real.mul_self_sqrt (hd i).le, one_mul]

theorem exists_isChol_iff {A : Matrix (Fin D) (Fin D) ℝ} : (∃ U, IsChol A U) ↔ A.PosDef :=
  ⟨fun ⟨_, h⟩ => h.posDef, exists_isChol⟩

theorem fromUpper_of_isSymm {A : Matrix (Fin D) (Fin D) ℝ} (h : A.IsSymm) : fromUpper A = A := by
  ext i j
  unfold fromUpper
  split
  · rfl
  · exact congrFun (congrFun h i) j

/-- `chol` of a symmetric matrix. -/
theorem chol_spec {A : Matrix (Fin D) (Fin D) ℝ} (h : A.IsSymm) :
    (A.PosDef ∧ ∃ U, chol A = .ok U ∧ IsChol A U) ∨ (¬ A.PosDef ∧ chol A = .error .exception) := by
  unfold chol
  rw [fromUpper_of_isSymm h]
  by_cases hU : ∃ U, IsChol A U
  · exact Or.inl ⟨exists_isChol_iff.1 hU, _, dif_pos hU, hU.choose_spec⟩
  · exact Or.inr ⟨fun hA => hU (exists_isChol hA), dif_neg hU⟩

theorem IsChol.solve {A U : Matrix (Fin D) (Fin D) ℝ} (h : IsChol A U) (b : Fin D → ℝ) :
    cholSolve U b = A⁻¹ *ᵥ b := by unfold cholSolve; rw [h.eq]

theorem IsChol.solveM {A U : Matrix (Fin D) (Fin D) ℝ} (h : IsChol A U)
    (B : Matrix (Fin D) (Fin D) ℝ) : cholSolveM U B = A⁻¹ * B := by
  ext i j
  unfold cholSolveM
  rw [of_apply, h.solve]
  rfl

theorem IsChol.inv {A U : Matrix (Fin D) (Fin D) ℝ} (h : IsChol A U) : cholInv U = A⁻¹ := by
  unfold cholInv
  rw [h.solveM, Matrix.mul_one]

end Verif
