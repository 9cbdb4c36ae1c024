import Mathlib.Tactic.LinearCombination
import Mathlib.Tactic.Module
import Verif.Lemmas.BlockBandedSolve

/-!
# Block tridiagonal matrices: factorisation, determinant, definiteness
-/

namespace Verif
open Matrix Spec

variable {D : Nat}

/-- A block tridiagonal matrix that need not be symmetric. -/
def tri (N : Nat) (L A U : Nat → Matrix (Fin D) (Fin D) ℝ) :
    Matrix (Fin N × Fin D) (Fin N × Fin D) ℝ := fun p q =>
  if p.1 = q.1 then A p.1 p.2 q.2
  else if p.1.val + 1 = q.1.val then U p.1 p.2 q.2
  else if q.1.val + 1 = p.1.val then L q.1 p.2 q.2
  else 0

theorem blockTridiagonal_eq (N : Nat) (A B : Nat → Matrix (Fin D) (Fin D) ℝ) :
    blockTridiagonal N A B = tri N (fun n => (B n)ᵀ) A B := rfl

/-- Row `m` of a block tridiagonal matrix times a vector. -/
def triRow (M : Nat) (L A U : Nat → Matrix (Fin D) (Fin D) ℝ) (x : Nat → Fin D → ℝ) (m : Nat) :
    Fin D → ℝ :=
  (if m = 0 then 0 else L (m - 1) *ᵥ x (m - 1)) + A m *ᵥ x m +
    if m = M then 0 else U m *ᵥ x (m + 1)

theorem tri_mulVec (M : Nat) (L A U : Nat → Matrix (Fin D) (Fin D) ℝ) (x : Nat → Fin D → ℝ) :
    tri (M + 1) L A U *ᵥ blockVector (M + 1) x = blockVector (M + 1) (triRow M L A U x) := by
  funext ⟨m, i⟩
  obtain ⟨m, hm⟩ := m
  show ∑ q : Fin (M + 1) × Fin D, tri (M + 1) L A U (⟨m, hm⟩, i) q * blockVector (M + 1) x q =
    triRow M L A U x m i
  rw [Fintype.sum_prod_type]
  have h1 : ∀ q : Fin (M + 1), (∑ j, tri (M + 1) L A U (⟨m, hm⟩, i) (q, j) *
      blockVector (M + 1) x (q, j)) =
      ((if m = q.val then (A m *ᵥ x q) i else 0) + (if m + 1 = q.val then (U m *ᵥ x q) i else 0)) +
        (if q.val + 1 = m then (L q *ᵥ x q) i else 0) := by
    rintro ⟨q, hq⟩
    unfold tri blockVector
    simp only [Fin.mk.injEq]
    rcases Nat.lt_trichotomy m q with h | h | h
    · simp only [if_neg (show ¬ m = q by omega), if_neg (show ¬ q + 1 = m by omega)]
      by_cases h' : m + 1 = q
      · simp only [if_pos h', zero_add, add_zero]; rfl
      · simp [if_neg h']
    · subst h; simp; rfl
    · simp only [if_neg (show ¬ m = q by omega), if_neg (show ¬ m + 1 = q by omega)]
      by_cases h' : q + 1 = m
      · simp only [if_pos h', zero_add]; rfl
      · simp [if_neg h']
  simp only [h1]
  rw [Fin.sum_univ_eq_sum_range (fun q => ((if m = q then (A m *ᵥ x q) i else 0) +
    (if m + 1 = q then (U m *ᵥ x q) i else 0)) + (if q + 1 = m then (L q *ᵥ x q) i else 0)) (M + 1),
    Finset.sum_add_distrib, Finset.sum_add_distrib, Finset.sum_ite_eq, Finset.sum_ite_eq]
  have h2 : (∑ q ∈ Finset.range (M + 1), if q + 1 = m then (L q *ᵥ x q) i else 0) =
      (if m = 0 then (0 : Fin D → ℝ) else L (m - 1) *ᵥ x (m - 1)) i := by
    rcases m with _ | k
    · simp
    · simp only [Nat.add_right_cancel_iff, Finset.sum_ite_eq', Finset.mem_range]
      rw [if_pos (by omega)]
      simp
  rw [h2]
  unfold triRow
  simp only [Finset.mem_range, hm, if_true, Pi.add_apply]
  by_cases hM : m = M
  · subst hM; simp; ring
  · rw [if_pos (by omega), if_neg hM]; ring

theorem exists_blockVector (M : Nat) (v : Fin (M + 1) × Fin D → ℝ) : ∃ x, v = blockVector (M + 1) x :=
  ⟨fun n i => if h : n < M + 1 then v (⟨n, h⟩, i) else 0, by
    funext ⟨⟨m, hm⟩, i⟩
    simp only [blockVector, hm, dif_pos]⟩

theorem blockVector_congr {M : Nat} {x y : Nat → Fin D → ℝ} (h : ∀ m ≤ M, x m = y m) :
    blockVector (M + 1) x = blockVector (M + 1) y := by
  funext ⟨⟨m, hm⟩, i⟩
  exact congrFun (h m (by omega)) i

theorem matrix_ext_mulVec {ι : Type*} [Fintype ι] [DecidableEq ι] {P Q : Matrix ι ι ℝ}
    (h : ∀ v, P *ᵥ v = Q *ᵥ v) : P = Q := Matrix.mulVec_injective (funext h)

theorem tri_transpose (N : Nat) (L A U : Nat → Matrix (Fin D) (Fin D) ℝ) :
    (tri N L A U)ᵀ = tri N (fun n => (U n)ᵀ) (fun n => (A n)ᵀ) (fun n => (L n)ᵀ) := by
  ext ⟨p, i⟩ ⟨q, j⟩
  rw [transpose_apply]
  unfold tri
  simp only [transpose_apply]
  rcases lt_trichotomy p q with h | h | h
  · have h' : p.val < q.val := h
    simp only [if_neg (ne_of_gt h), if_neg (show ¬ q.val + 1 = p.val by omega), if_neg (ne_of_lt h)]
  · subst h; simp
  · have h' : q.val < p.val := h
    simp only [if_neg (ne_of_lt h), if_neg (ne_of_gt h), if_neg (show ¬ p.val + 1 = q.val by omega)]

theorem triRow_diag (M : Nat) (W : Nat → Matrix (Fin D) (Fin D) ℝ) (x : Nat → Fin D → ℝ) (m : Nat) :
    triRow M 0 W 0 x m = W m *ᵥ x m := by
  unfold triRow
  simp

theorem triRow_upper (M : Nat) (U : Nat → Matrix (Fin D) (Fin D) ℝ) (x : Nat → Fin D → ℝ) (m : Nat) :
    triRow M 0 1 U x m = x m + if m = M then 0 else U m *ᵥ x (m + 1) := by
  unfold triRow
  simp

theorem triRow_lower (M : Nat) (L : Nat → Matrix (Fin D) (Fin D) ℝ) (x : Nat → Fin D → ℝ) (m : Nat) :
    triRow M L (fun n => ((1 : Nat → Matrix (Fin D) (Fin D) ℝ) n)ᵀ)
      (fun n => ((0 : Nat → Matrix (Fin D) (Fin D) ℝ) n)ᵀ) x m =
      (if m = 0 then 0 else L (m - 1) *ᵥ x (m - 1)) + x m := by
  unfold triRow
  simp

/-- The factorisation behind the algorithm; the last pivot need not be invertible. -/
theorem factor (M : Nat) (A B : Nat → Matrix (Fin D) (Fin D) ℝ) (hA : ∀ k ≤ M, (A k).IsSymm)
    (hW : ∀ k < M, IsUnit (pivot A B k).det) :
    blockTridiagonal (M + 1) A B = (tri (M + 1) 0 1 fun n => (pivot A B n)⁻¹ * B n)ᵀ *
      (tri (M + 1) 0 (pivot A B) 0 * tri (M + 1) 0 1 fun n => (pivot A B n)⁻¹ * B n) := by
  refine matrix_ext_mulVec fun v => ?_
  obtain ⟨x, rfl⟩ := exists_blockVector M v
  rw [← mulVec_mulVec, ← mulVec_mulVec, tri_mulVec, tri_mulVec, tri_transpose, tri_mulVec,
    blockTridiagonal_eq, tri_mulVec]
  refine blockVector_congr fun m hm => ?_
  rw [triRow_lower]
  simp only [triRow_diag, triRow_upper]
  rcases m with _ | m
  · unfold triRow
    by_cases hM : 0 = M
    · subst hM; simp [pivot]
    · have hu := hW 0 (by omega)
      simp only [if_neg hM, if_true, zero_add, mulVec_add, mulVec_mulVec]
      rw [mul_nonsing_inv_cancel_left _ _ hu]
      rfl
  · have hu := hW m (by omega)
    have hs : (pivot A B m).IsSymm := pivot_isSymm A B m fun k hk => hA k (by omega)
    have key : (B m)ᵀ * ((pivot A B m)⁻¹)ᵀ * pivot A B m = (B m)ᵀ := by
      rw [(isSymm_inv hs).eq, nonsing_inv_mul_cancel_right _ _ hu]
    have hpiv : A (m + 1) = pivot A B (m + 1) + (B m)ᵀ * ((pivot A B m)⁻¹ * B m) := by
      simp only [pivot]; abel
    unfold triRow
    simp only [if_neg (Nat.succ_ne_zero m), Nat.add_sub_cancel, if_neg (show ¬ m = M by omega)]
    have e1 : ((pivot A B m)⁻¹ * B m)ᵀ *ᵥ (pivot A B m *ᵥ
        (x m + ((pivot A B m)⁻¹ * B m) *ᵥ x (m + 1))) =
        (B m)ᵀ *ᵥ x m + ((B m)ᵀ * ((pivot A B m)⁻¹ * B m)) *ᵥ x (m + 1) := by
      rw [transpose_mul, mulVec_mulVec, key, mulVec_add, mulVec_mulVec]
    rw [e1, hpiv, add_mulVec, mulVec_add]
    by_cases hM : m + 1 = M
    · simp only [if_pos hM, add_zero, mulVec_zero]
      abel
    · have hu' := hW (m + 1) (by omega)
      simp only [if_neg hM, mulVec_mulVec]
      rw [mul_nonsing_inv_cancel_left _ _ hu']
      abel

/-! ### Determinant -/

theorem det_tri (N : Nat) (W U : Nat → Matrix (Fin D) (Fin D) ℝ) :
    (tri N 0 W U).det = ∏ n : Fin N, (W n).det := by
  have hb : (tri N 0 W U).BlockTriangular Prod.fst := by
    rintro ⟨p, i⟩ ⟨q, j⟩ h
    have h' : q.val < p.val := h
    unfold tri
    simp only [if_neg (ne_of_gt (show q < p from h)), if_neg (show ¬ p.val + 1 = q.val by omega)]
    split <;> rfl
  rw [hb.det_fintype]
  refine Finset.prod_congr rfl fun n _ => ?_
  let e : Fin D ≃ {p : Fin N × Fin D // p.1 = n} :=
    ⟨fun i => ⟨(n, i), rfl⟩, fun p => p.1.2, fun i => rfl, fun ⟨⟨m, i⟩, h⟩ => by
      subst h; rfl⟩
  rw [← det_submatrix_equiv_self e]
  congr 1
  ext i j
  show tri N 0 W U (n, i) (n, j) = _
  unfold tri
  simp

theorem det_blockTridiagonal (M : Nat) (A B : Nat → Matrix (Fin D) (Fin D) ℝ)
    (hA : ∀ k ≤ M, (A k).IsSymm) (hW : ∀ k < M, IsUnit (pivot A B k).det) :
    (blockTridiagonal (M + 1) A B).det = ∏ n : Fin (M + 1), (pivot A B n).det := by
  rw [factor M A B hA hW, det_mul, det_mul, det_transpose, det_tri, det_tri]
  simp

/-! ### Definiteness -/

theorem posDef_tri_diag (N : Nat) (W : Nat → Matrix (Fin D) (Fin D) ℝ) :
    (tri N 0 W 0).PosDef ↔ ∀ n < N, (W n).PosDef := by
  constructor
  · intro h n hn
    have := h.submatrix (e := fun i : Fin D => ((⟨n, hn⟩ : Fin N), i)) (fun i j hij => by simpa using hij)
    convert this using 1
    ext i j
    show W n i j = tri N 0 W 0 (⟨n, hn⟩, i) (⟨n, hn⟩, j)
    unfold tri
    simp
  · intro h
    refine PosDef.of_dotProduct_mulVec_pos ?_ ?_
    · show (tri N 0 W 0)ᴴ = _
      rw [conjTranspose_eq_transpose_of_trivial]
      ext ⟨p, i⟩ ⟨q, j⟩
      rw [transpose_apply]
      unfold tri
      by_cases e : p = q
      · subst e
        simp only [if_true]
        have := (h p p.2).isHermitian
        have := congrFun (congrFun this i) j
        simpa using this
      · simp [e, Ne.symm e]
    · intro v hv
      rcases N with _ | M
      · exact absurd (Subsingleton.elim v 0) hv
      obtain ⟨x, rfl⟩ := exists_blockVector M v
      rw [tri_mulVec]
      show 0 < ∑ p : Fin (M + 1) × Fin D, star (x p.1 p.2) * triRow M 0 W 0 x p.1 p.2
      rw [Fintype.sum_prod_type]
      have hn : ∀ n : Fin (M + 1), 0 ≤ ∑ i, star (x n i) * triRow M 0 W 0 x n i := by
        intro n
        rw [triRow_diag]
        exact (h n n.2).posSemidef.dotProduct_mulVec_nonneg (x n)
      obtain ⟨⟨n, i⟩, hni⟩ := Function.ne_iff.1 hv
      refine Finset.sum_pos' (fun n _ => hn n) ⟨n, Finset.mem_univ _, ?_⟩
      show 0 < ∑ i, star (x n i) * triRow M 0 W 0 x n i
      rw [triRow_diag]
      exact (h n n.2).dotProduct_mulVec_pos (Function.ne_iff.2 ⟨i, hni⟩)

theorem isUnit_tri_one (N : Nat) (U : Nat → Matrix (Fin D) (Fin D) ℝ) : IsUnit (tri N 0 1 U) := by
  rw [isUnit_iff_isUnit_det, det_tri]
  simp

theorem posDef_blockTridiagonal_aux (M : Nat) (A B : Nat → Matrix (Fin D) (Fin D) ℝ)
    (hA : ∀ k ≤ M, (A k).IsSymm) (hW : ∀ k < M, IsUnit (pivot A B k).det) :
    (blockTridiagonal (M + 1) A B).PosDef ↔ ∀ n < M + 1, (pivot A B n).PosDef := by
  rw [factor M A B hA hW, ← posDef_tri_diag, ← Matrix.mul_assoc, ← conjTranspose_eq_transpose_of_trivial]
  exact IsUnit.posDef_star_left_conjugate_iff (isUnit_tri_one _ _)

theorem posDef_blockTridiagonal (M : Nat) (A B : Nat → Matrix (Fin D) (Fin D) ℝ)
    (hA : ∀ k ≤ M, (A k).IsSymm) :
    (blockTridiagonal (M + 1) A B).PosDef ↔ ∀ n ≤ M, (pivot A B n).PosDef := by
  have hdet : ∀ {W : Matrix (Fin D) (Fin D) ℝ}, W.PosDef → IsUnit W.det := fun h => h.det_pos.ne'.isUnit
  constructor
  · intro h n hn
    induction n using Nat.strong_induction_on with
    | _ n ih =>
      have hsub : (blockTridiagonal (n + 1) A B).PosDef := by
        have := h.submatrix (e := fun p : Fin (n + 1) × Fin D => (Fin.castLE (by omega) p.1, p.2))
          (fun p q hpq => by
            obtain ⟨p, i⟩ := p
            obtain ⟨q, j⟩ := q
            simp only [Prod.mk.injEq, Fin.castLE_inj] at hpq
            rw [hpq.1, hpq.2])
        convert this using 1
        ext ⟨p, i⟩ ⟨q, j⟩
        simp [blockTridiagonal]
      exact (posDef_blockTridiagonal_aux n A B (fun k hk => hA k (by omega))
        fun k hk => hdet (ih k hk (by omega))).1 hsub n (by omega)
  · intro h
    exact (posDef_blockTridiagonal_aux M A B hA fun k hk => hdet (h k (by omega))).2
      fun n hn => h n (by omega)

end Verif
