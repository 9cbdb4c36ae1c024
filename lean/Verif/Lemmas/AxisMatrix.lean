import Verif.Lemmas.EinsumEll
import Verif.Lemmas.PlateOps
import Verif.Props.Rotate
import Mathlib.LinearAlgebra.Matrix.Kronecker

/-!
# A matrix that multiplies one axis of an array, as a matrix over all axes
-/

namespace Verif
open Spec Matrix

theorem split_mem_indices {s t i : List Nat} (h : i ∈ indices (s ++ t)) : ∃ j ∈ indices s, ∃ l ∈ indices t, i = j ++ l := by
  induction s generalizing i with
  | nil => exact ⟨[], mem_indices_nil.2 rfl, i, h, rfl⟩
  | cons d s ih =>
    obtain ⟨a, i', rfl, ha, hi⟩ := mem_indices_cons'.1 (by simpa using h)
    obtain ⟨j, hj, l, hl, rfl⟩ := ih hi
    exact ⟨a :: j, mem_indices_cons.2 ⟨ha, hj⟩, l, hl, rfl⟩

theorem indexOf_mem {s i : List Nat} (h : i ∈ indices s) : i ∈ (indices s).toFinset := List.mem_toFinset.2 h

/-- the multi-index with parts before, at and after an axis -/
def axisIx {a t b : List Nat} (x : (MultiIndex a × MultiIndex b) × MultiIndex t) : MultiIndex (a ++ (t ++ b)) :=
  ⟨x.1.1.1 ++ (x.2.1 ++ x.1.2.1),
    indexOf_mem (append_mem_indices (multi_mem _) (append_mem_indices (multi_mem _) (multi_mem _)))⟩

noncomputable def axisEquiv (a t b : List Nat) : (MultiIndex a × MultiIndex b) × MultiIndex t ≃ MultiIndex (a ++ (t ++ b)) :=
  Equiv.ofBijective axisIx ⟨by
    rintro ⟨⟨x, z⟩, y⟩ ⟨⟨x', z'⟩, y'⟩ h
    have h := congrArg Subtype.val h
    simp only [axisIx] at h
    obtain ⟨h1, h2⟩ := List.append_inj h (by rw [length_of_mem_indices (multi_mem x), length_of_mem_indices (multi_mem x')])
    obtain ⟨h2, h3⟩ := List.append_inj h2 (by rw [length_of_mem_indices (multi_mem y), length_of_mem_indices (multi_mem y')])
    rw [Subtype.ext h1, Subtype.ext h2, Subtype.ext h3], by
    intro i
    obtain ⟨j, hj, l, hl, e⟩ := split_mem_indices (multi_mem i)
    obtain ⟨k, hk, l, hl2, rfl⟩ := split_mem_indices hl
    exact ⟨((⟨j, indexOf_mem hj⟩, ⟨l, indexOf_mem hl2⟩), ⟨k, indexOf_mem hk⟩), Subtype.ext e.symm⟩⟩

theorem axisEquiv_val {a t b : List Nat} (x : (MultiIndex a × MultiIndex b) × MultiIndex t) :
    (axisEquiv a t b x).1 = x.1.1.1 ++ (x.2.1 ++ x.1.2.1) := rfl

section
variable {a b : List Nat} {n : Nat}

/-- the matrix that multiplies the axis between the axes `a` and `b` by `M` -/
noncomputable def axisM (a b : List Nat) {n : Nat} (M : Matrix (MultiIndex [n]) (MultiIndex [n]) ℝ) :
    Matrix (MultiIndex (a ++ ([n] ++ b))) (MultiIndex (a ++ ([n] ++ b))) ℝ :=
  ((1 : Matrix (MultiIndex a × MultiIndex b) (MultiIndex a × MultiIndex b) ℝ).kronecker M).submatrix
    (axisEquiv a [n] b).symm (axisEquiv a [n] b).symm

theorem axisM_mulVec (M : Matrix (MultiIndex [n]) (MultiIndex [n]) ℝ) (v : MultiIndex (a ++ ([n] ++ b)) → ℝ)
    (x : MultiIndex a × MultiIndex b) (y : MultiIndex [n]) :
    (axisM a b M *ᵥ v) (axisEquiv a [n] b (x, y)) = ∑ j, M y j * v (axisEquiv a [n] b (x, j)) := by
  simp only [mulVec, dotProduct, axisM, submatrix_apply, Equiv.symm_apply_apply]
  rw [← (axisEquiv a [n] b).sum_comp, Fintype.sum_prod_type]
  simp only [Equiv.symm_apply_apply, kronecker, kroneckerMap_apply, one_apply]
  rw [Finset.sum_eq_single x]
  · simp
  · intro z _ hz; simp [Ne.symm hz]
  · simp

theorem axisM_mul_apply (M : Matrix (MultiIndex [n]) (MultiIndex [n]) ℝ) {τ : Type*} (C : Matrix (MultiIndex (a ++ ([n] ++ b))) τ ℝ)
    (x : MultiIndex a × MultiIndex b) (y : MultiIndex [n]) (q : τ) :
    (axisM a b M * C) (axisEquiv a [n] b (x, y)) q = ∑ j, M y j * C (axisEquiv a [n] b (x, j)) q :=
  axisM_mulVec M (fun i => C i q) x y

theorem axisM_transpose (M : Matrix (MultiIndex [n]) (MultiIndex [n]) ℝ) : (axisM a b M)ᵀ = axisM a b Mᵀ := by
  unfold axisM
  rw [transpose_submatrix]
  congr 1
  ext ⟨x, i⟩ ⟨y, j⟩
  by_cases h : x = y
  · subst h; simp [kronecker, kroneckerMap_apply]
  · simp [kronecker, kroneckerMap_apply, one_apply, h, Ne.symm h]

theorem axisM_mul (M N : Matrix (MultiIndex [n]) (MultiIndex [n]) ℝ) : axisM a b M * axisM a b N = axisM a b (M * N) := by
  unfold axisM
  rw [submatrix_mul_equiv]
  congr 1
  exact (mul_kronecker_mul 1 1 M N).symm.trans (by rw [one_mul]; rfl)

theorem axisM_one : axisM a b (1 : Matrix (MultiIndex [n]) (MultiIndex [n]) ℝ) = 1 := by
  unfold axisM
  rw [show (1 : Matrix (MultiIndex a × MultiIndex b) (MultiIndex a × MultiIndex b) ℝ).kronecker
    (1 : Matrix (MultiIndex [n]) (MultiIndex [n]) ℝ) = 1 from one_kronecker_one, submatrix_one_equiv]

theorem card_multi (s : List Nat) : Fintype.card (MultiIndex s) = s.prod := by
  rw [Fintype.card_congr (rowEquiv s), Fintype.card_fin]

theorem axisM_det (M : Matrix (MultiIndex [n]) (MultiIndex [n]) ℝ) : (axisM a b M).det = M.det ^ (a ++ b).prod := by
  unfold axisM
  rw [det_submatrix_equiv_self]
  refine (det_kronecker _ _).trans ?_
  rw [det_one, one_pow, one_mul, Fintype.card_prod, card_multi, card_multi, List.prod_append]

theorem axisM_inv (M : Matrix (MultiIndex [n]) (MultiIndex [n]) ℝ) (h : M.det ≠ 0) : (axisM a b M)⁻¹ = axisM a b M⁻¹ := by
  apply inv_eq_left_inv
  rw [axisM_mul, nonsing_inv_mul _ h.isUnit, axisM_one]

theorem axisM_det_ne {M : Matrix (MultiIndex [n]) (MultiIndex [n]) ℝ} (h : M.det ≠ 0) : (axisM a b M).det ≠ 0 := by
  rw [axisM_det]; exact pow_ne_zero _ h

end

end Verif
