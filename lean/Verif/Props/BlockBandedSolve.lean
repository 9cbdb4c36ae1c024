import Verif.Lemmas.BlockTridiagonal

/-!
# C29, C30, C54: `block_banded_solve`
-/

namespace Verif
open Matrix Spec

variable {D : Nat}

/-- Back substitution solves the system. -/
theorem solves_of_recursion (M : Nat) (A B : Nat → Matrix (Fin D) (Fin D) ℝ) (y x : Nat → Fin D → ℝ)
    (hA : ∀ k ≤ M, (A k).IsSymm) (hW : ∀ k ≤ M, (pivot A B k).PosDef)
    (hlast : x M = (pivot A B M)⁻¹ *ᵥ reduced A B y M)
    (hx : ∀ k < M, x k = (pivot A B k)⁻¹ *ᵥ (reduced A B y k - B k *ᵥ x (k + 1))) :
    blockTridiagonal (M + 1) A B *ᵥ blockVector (M + 1) x = blockVector (M + 1) y := by
  have hu : ∀ k ≤ M, IsUnit (pivot A B k).det := fun k hk => (hW k hk).det_pos.ne'.isUnit
  have hrow : ∀ k ≤ M, pivot A B k *ᵥ x k + (if k = M then 0 else B k *ᵥ x (k + 1)) =
      reduced A B y k := by
    intro k hk
    by_cases e : k = M
    · subst e
      rw [hlast, mulVec_mulVec, mul_nonsing_inv _ (hu k hk), one_mulVec, if_pos rfl, add_zero]
    · rw [if_neg e, hx k (by omega), mulVec_mulVec, mul_nonsing_inv _ (hu k hk), one_mulVec,
        sub_add_cancel]
  rw [blockTridiagonal_eq, tri_mulVec]
  refine blockVector_congr fun m hm => ?_
  rcases m with _ | m
  · have := hrow 0 (Nat.zero_le _)
    unfold triRow
    rw [if_pos rfl, zero_add]
    exact this
  · have h1 := hrow (m + 1) hm
    have hxm := hx m (by omega)
    have hpiv : A (m + 1) = pivot A B (m + 1) + (B m)ᵀ * ((pivot A B m)⁻¹ * B m) := by
      simp only [pivot]; abel
    unfold triRow
    rw [if_neg (Nat.succ_ne_zero m), Nat.add_sub_cancel, hpiv, add_mulVec]
    have e2 : (B m)ᵀ *ᵥ x m + ((B m)ᵀ * ((pivot A B m)⁻¹ * B m)) *ᵥ x (m + 1) =
        (B m)ᵀ *ᵥ ((pivot A B m)⁻¹ *ᵥ reduced A B y m) := by
      rw [hxm, ← mulVec_mulVec, ← mulVec_mulVec, ← mulVec_add, mulVec_sub, sub_add_cancel]
    have e3 : reduced A B y (m + 1) = y (m + 1) - (B m)ᵀ *ᵥ ((pivot A B m)⁻¹ *ᵥ reduced A B y m) := rfl
    rw [e3, eq_sub_iff_add_eq, ← e2] at h1
    rw [← h1]
    abel

theorem reduced_zero (A B : Nat → Matrix (Fin D) (Fin D) ℝ) (y : Nat → Fin D → ℝ) (n : Nat)
    (h : ∀ k ≤ n, y k = 0) : reduced A B y n = 0 := by
  induction n with
  | zero => exact h 0 le_rfl
  | succ n ih =>
    show y (n + 1) - _ = _
    rw [h (n + 1) le_rfl, ih fun k hk => h k (by omega)]
    simp

theorem reduced_first (A B : Nat → Matrix (Fin D) (Fin D) ℝ) (y : Nat → Fin D → ℝ) (n : Nat)
    (h : ∀ k < n, y k = 0) : reduced A B y n = y n := by
  rcases n with _ | n
  · rfl
  · show y (n + 1) - _ = _
    rw [reduced_zero A B y n fun k hk => h k (by omega)]
    simp

/-- **C29** If `block_banded_solve` returns, its `x` solves the system. -/
theorem C29_solves_partial (N nA nB : Nat) (A B : Nat → Matrix (Fin D) (Fin D) ℝ)
    (y : Nat → Fin D → ℝ) (hA : ∀ k < N, (A k).IsSymm) (s : BandState D)
    (h : blockBandedSolve nA nB N A B y = .ok s) :
    blockTridiagonal N A B *ᵥ blockVector N s.x = blockVector N y := by
  obtain ⟨rfl, rfl⟩ : nA = N ∧ nB + 1 = N := by
    unfold blockBandedSolve at h
    by_cases h1 : nA = N
    · by_cases h2 : nB + 1 = N
      · exact ⟨h1, h2⟩
      · simp only [h1, h2, ne_eq, not_true_eq_false, not_false_eq_true, if_true, if_false] at h
        cases h
    · simp only [h1, ne_eq, not_false_eq_true, if_true] at h
      cases h
  have hA' : ∀ k ≤ nB, (A k).IsSymm := fun k hk => hA k (by omega)
  rcases blockBandedSolve_spec A B y nB hA' with ⟨hp, s', hs', hb⟩ | ⟨_, he⟩
  · rw [h] at hs'
    injection hs' with hs'
    subst hs'
    exact solves_of_recursion nB A B y s.x hA' hp hb.xlast fun k hk => hb.xs k (Nat.zero_le _) hk
  · rw [h] at he
    cases he

/-- **C54** `block_banded_solve` succeeds exactly for the positive definite systems, and raises the
exception of `chol` for all others. -/
theorem C54_succeeds_iff_posDef (M : Nat) (A B : Nat → Matrix (Fin D) (Fin D) ℝ)
    (y : Nat → Fin D → ℝ) (hA : ∀ k ≤ M, (A k).IsSymm) :
    ((∃ s, blockBandedSolve (M + 1) M (M + 1) A B y = .ok s) ↔
      (blockTridiagonal (M + 1) A B).PosDef) ∧
    (¬ (blockTridiagonal (M + 1) A B).PosDef →
      blockBandedSolve (M + 1) M (M + 1) A B y = .error .exception) := by
  rw [posDef_blockTridiagonal M A B hA]
  rcases blockBandedSolve_spec A B y M hA with ⟨hp, s', hs', hb⟩ | ⟨⟨k, hk, hp⟩, he⟩
  · exact ⟨⟨fun _ => hp, fun _ => ⟨s', hs'⟩⟩, fun hn => absurd hp hn⟩
  · refine ⟨⟨fun ⟨s, hs⟩ => ?_, fun h => absurd (h k hk) hp⟩, fun _ => he⟩
    rw [hs] at he
    cases he

/-- **C54** Wrong numbers of blocks are rejected. -/
theorem C54_counts (N nA nB : Nat) (A B : Nat → Matrix (Fin D) (Fin D) ℝ)
    (y : Nat → Fin D → ℝ) (h : nA ≠ N ∨ nB + 1 ≠ N) :
    blockBandedSolve nA nB N A B y = .error .valueError := by
  unfold blockBandedSolve
  by_cases h1 : nA = N
  · have h2 : nB + 1 ≠ N := by tauto
    simp only [h1, h2, ne_eq, not_true_eq_false, not_false_eq_true, if_true, if_false]
    rfl
  · simp only [h1, ne_eq, not_false_eq_true, if_true]
    rfl

section inverse

variable (M : Nat) (A B : Nat → Matrix (Fin D) (Fin D) ℝ)

/-- The columns of the inverse solve the system with a unit vector. -/
theorem inverse_column (hA : ∀ k ≤ M, (A k).IsSymm) (hp : ∀ k ≤ M, (pivot A B k).PosDef)
    (n : Fin (M + 1)) (j : Fin D) :
    ∃ x : Nat → Fin D → ℝ,
      (∀ m : Fin (M + 1), ∀ i, (blockTridiagonal (M + 1) A B)⁻¹ (m, i) (n, j) = x m i) ∧
      x M = (pivot A B M)⁻¹ *ᵥ reduced A B (fun k => if k = n then Pi.single j 1 else 0) M ∧
      (∀ k < M, x k = (pivot A B k)⁻¹ *ᵥ
        (reduced A B (fun k => if k = n then Pi.single j 1 else 0) k - B k *ᵥ x (k + 1))) := by
  set y : Nat → Fin D → ℝ := fun k => if k = n then Pi.single j 1 else 0 with hy
  rcases blockBandedSolve_spec A B y M hA with ⟨_, s, _, hb⟩ | ⟨⟨k, hk, hn⟩, _⟩
  swap
  · exact absurd (hp k hk) hn
  refine ⟨s.x, ?_, hb.xlast, fun k hk => hb.xs k (Nat.zero_le _) hk⟩
  have hsol := solves_of_recursion M A B y s.x hA hp hb.xlast fun k hk => hb.xs k (Nat.zero_le _) hk
  have hT : IsUnit (blockTridiagonal (M + 1) A B).det :=
    ((posDef_blockTridiagonal M A B hA).2 hp).det_pos.ne'.isUnit
  have hyv : blockVector (M + 1) y = Pi.single (n, j) 1 := by
    funext ⟨m, i⟩
    unfold blockVector
    simp only [hy]
    by_cases e : m = n
    · subst e
      by_cases e' : i = j
      · subst e'; simp
      · simp [Pi.single_apply, e']
    · rw [if_neg (fun h => e (Fin.ext h))]
      simp [Pi.single_apply, e]
  intro m i
  have : (blockTridiagonal (M + 1) A B)⁻¹ *ᵥ Pi.single (n, j) 1 = blockVector (M + 1) s.x := by
    rw [← hyv, ← hsol, mulVec_mulVec, nonsing_inv_mul _ hT, one_mulVec]
  have := congrFun this (m, i)
  rw [mulVec_single_one] at this
  exact this

theorem inverse_symm (hA : ∀ k ≤ M, (A k).IsSymm) (hp : ∀ k ≤ M, (pivot A B k).PosDef)
    (m n : Fin (M + 1)) :
    (Spec.block (blockTridiagonal (M + 1) A B)⁻¹ m n)ᵀ =
      Spec.block (blockTridiagonal (M + 1) A B)⁻¹ n m := by
  have hT : (blockTridiagonal (M + 1) A B)⁻¹ᵀ = (blockTridiagonal (M + 1) A B)⁻¹ := by
    have := ((posDef_blockTridiagonal M A B hA).2 hp).isHermitian
    rw [transpose_nonsing_inv]
    rw [IsHermitian, conjTranspose_eq_transpose_of_trivial] at this
    rw [this]
  ext i j
  exact congrFun (congrFun hT (n, i)) (m, j)

/-- Above the diagonal. -/
theorem inverse_super (hA : ∀ k ≤ M, (A k).IsSymm) (hp : ∀ k ≤ M, (pivot A B k).PosDef)
    (k : Nat) (hk : k < M) :
    Spec.block (blockTridiagonal (M + 1) A B)⁻¹ ⟨k, by omega⟩ ⟨k + 1, by omega⟩ =
      -(((pivot A B k)⁻¹ * B k) *
        Spec.block (blockTridiagonal (M + 1) A B)⁻¹ ⟨k + 1, by omega⟩ ⟨k + 1, by omega⟩) := by
  ext i j
  obtain ⟨x, hx, _, hrec⟩ := inverse_column M A B hA hp ⟨k + 1, by omega⟩ j
  have h1 : reduced A B (fun n => if n = k + 1 then Pi.single j 1 else 0) k = 0 :=
    reduced_zero A B _ k fun n hn => if_neg (by omega)
  have h2 := hrec k hk
  simp only at h2
  rw [h1, zero_sub, mulVec_neg, mulVec_mulVec] at h2
  show (blockTridiagonal (M + 1) A B)⁻¹ (⟨k, _⟩, i) (⟨k + 1, _⟩, j) = _
  rw [hx, h2]
  rw [Matrix.neg_apply, Matrix.mul_apply, Pi.neg_apply]
  have h3 : (((pivot A B k)⁻¹ * B k) *ᵥ x (k + 1)) i = ∑ l, ((pivot A B k)⁻¹ * B k) i l *
      Spec.block (blockTridiagonal (M + 1) A B)⁻¹ ⟨k + 1, by omega⟩ ⟨k + 1, by omega⟩ l j := by
    show ∑ l, ((pivot A B k)⁻¹ * B k) i l * x (k + 1) l = _
    exact Finset.sum_congr rfl fun l _ => congrArg _ (hx ⟨k + 1, by omega⟩ l).symm
  rw [h3]

/-- On the diagonal. -/
theorem inverse_diag (hA : ∀ k ≤ M, (A k).IsSymm) (hp : ∀ k ≤ M, (pivot A B k).PosDef)
    (k : Nat) (hk : k < M) :
    Spec.block (blockTridiagonal (M + 1) A B)⁻¹ ⟨k, by omega⟩ ⟨k, by omega⟩ =
      (pivot A B k)⁻¹ - ((pivot A B k)⁻¹ * B k) *
        Spec.block (blockTridiagonal (M + 1) A B)⁻¹ ⟨k + 1, by omega⟩ ⟨k, by omega⟩ := by
  ext i j
  obtain ⟨x, hx, _, hrec⟩ := inverse_column M A B hA hp ⟨k, by omega⟩ j
  have h1 : reduced A B (fun n => if n = k then Pi.single j 1 else 0) k = Pi.single j 1 := by
    rw [reduced_first A B _ k fun n hn => if_neg (by omega), if_pos rfl]
  have h2 := hrec k hk
  simp only at h2
  rw [h1, mulVec_sub, mulVec_mulVec, mulVec_single_one] at h2
  show (blockTridiagonal (M + 1) A B)⁻¹ (⟨k, _⟩, i) (⟨k, _⟩, j) = _
  rw [hx, h2]
  rw [Matrix.sub_apply, Matrix.mul_apply, Pi.sub_apply]
  have h3 : (((pivot A B k)⁻¹ * B k) *ᵥ x (k + 1)) i = ∑ l, ((pivot A B k)⁻¹ * B k) i l *
      Spec.block (blockTridiagonal (M + 1) A B)⁻¹ ⟨k + 1, by omega⟩ ⟨k, by omega⟩ l j := by
    show ∑ l, ((pivot A B k)⁻¹ * B k) i l * x (k + 1) l = _
    exact Finset.sum_congr rfl fun l _ => congrArg _ (hx ⟨k + 1, by omega⟩ l).symm
  rw [h3]
  rfl

theorem inverse_last (hA : ∀ k ≤ M, (A k).IsSymm) (hp : ∀ k ≤ M, (pivot A B k).PosDef) :
    Spec.block (blockTridiagonal (M + 1) A B)⁻¹ ⟨M, by omega⟩ ⟨M, by omega⟩ = (pivot A B M)⁻¹ := by
  ext i j
  obtain ⟨x, hx, hlast, _⟩ := inverse_column M A B hA hp ⟨M, by omega⟩ j
  have h1 : reduced A B (fun n => if n = M then Pi.single j 1 else 0) M = Pi.single j 1 := by
    rw [reduced_first A B _ M fun n hn => if_neg (by omega), if_pos rfl]
  simp only at hlast
  rw [h1, mulVec_single_one] at hlast
  show (blockTridiagonal (M + 1) A B)⁻¹ (⟨M, _⟩, i) (⟨M, _⟩, j) = _
  rw [hx, hlast]
  rfl

end inverse

/-- **C30** The returned `V` and `C` are the diagonal and super-diagonal blocks of the inverse of the
whole matrix, and `ldet` is the logarithm of its determinant, which is positive. -/
theorem C30_inverse_blocks_and_logdet (M : Nat) (A B : Nat → Matrix (Fin D) (Fin D) ℝ)
    (y : Nat → Fin D → ℝ) (hA : ∀ k ≤ M, (A k).IsSymm) (s : BandState D)
    (h : blockBandedSolve (M + 1) M (M + 1) A B y = .ok s) :
    (∀ n : Fin (M + 1), s.V n = Spec.block (blockTridiagonal (M + 1) A B)⁻¹ n n) ∧
    (∀ n : Fin M, s.C n = Spec.block (blockTridiagonal (M + 1) A B)⁻¹ n.castSucc n.succ) ∧
    0 < (blockTridiagonal (M + 1) A B).det ∧
    s.ldet = Real.log (blockTridiagonal (M + 1) A B).det := by
  rcases blockBandedSolve_spec A B y M hA with ⟨hp, s', hs', hb⟩ | ⟨_, he⟩
  swap
  · rw [h] at he
    cases he
  rw [h] at hs'
  injection hs' with hs'
  subst hs'
  have hV : ∀ d, ∀ hd : d ≤ M, s.V (M - d) =
      Spec.block (blockTridiagonal (M + 1) A B)⁻¹ ⟨M - d, by omega⟩ ⟨M - d, by omega⟩ := by
    intro d
    induction d with
    | zero =>
      intro _
      exact hb.Vlast.trans (inverse_last M A B hA hp).symm
    | succ d ih =>
      intro hd
      have ih := ih (by omega)
      have e : M - (d + 1) + 1 = M - d := by omega
      have h1 := hb.Vs (M - (d + 1)) (Nat.zero_le _) (by omega)
      have h2 := inverse_diag M A B hA hp (M - (d + 1)) (by omega)
      have h3 := inverse_super M A B hA hp (M - (d + 1)) (by omega)
      rw [← inverse_symm M A B hA hp ⟨M - (d + 1), by omega⟩ ⟨M - (d + 1) + 1, by omega⟩, h3,
        transpose_neg, transpose_mul, inverse_symm M A B hA hp, mul_neg, sub_neg_eq_add] at h2
      rw [h1, h2]
      simp only [e, ih]
  have hV' : ∀ n : Fin (M + 1), s.V n = Spec.block (blockTridiagonal (M + 1) A B)⁻¹ n n := by
    rintro ⟨n, hn⟩
    have := hV (M - n) (by omega)
    simpa [show M - (M - n) = n by omega] using this
  refine ⟨hV', ?_, ((posDef_blockTridiagonal M A B hA).2 hp).det_pos, ?_⟩
  · rintro ⟨n, hn⟩
    have h1 := hb.Cs n (Nat.zero_le _) hn
    have h2 := hV' ⟨n + 1, by omega⟩
    show s.C n = Spec.block _ ⟨n, _⟩ ⟨n + 1, _⟩
    rw [inverse_super M A B hA hp n hn, h1]
    congr 2
  · rw [det_blockTridiagonal M A B hA fun k hk => (hp k (by omega)).det_pos.ne'.isUnit, hb.ldet,
      Real.log_prod (fun (i : Fin (M + 1)) _ => (hp i (by omega)).det_pos.ne')]
    exact (Fin.sum_univ_eq_sum_range (fun k => Real.log (pivot A B k).det) (M + 1)).symm

/-- **C29** Invertible pivots are not enough: Cholesky factors exist for positive definite pivots only.
For the one-by-one system `-x = 1` with pivot `-1` the function raises. -/
theorem C29_indefinite_refuted :
    IsUnit (blockTridiagonal 1 (fun _ => !![(-1 : ℝ)]) fun _ => 0).det ∧
    blockBandedSolve 1 0 1 (fun _ => !![(-1 : ℝ)]) (fun _ => 0) (fun _ _ => 1) = .error .exception := by
  have hs : ∀ k ≤ 0, ((fun _ => !![(-1 : ℝ)]) k).IsSymm := fun k _ => by
    ext i j; fin_cases i; fin_cases j; rfl
  refine ⟨?_, (C54_succeeds_iff_posDef 0 _ _ _ hs).2 fun h => ?_⟩
  · rw [det_blockTridiagonal 0 _ _ hs (fun k hk => by omega)]
    simp [pivot]
  · have := h.diag_pos (i := (0, 0))
    simp [blockTridiagonal] at this
    linarith

/-- Three blocks with non-zero off-diagonal blocks meet the hypotheses. -/
example : ∃ s, blockBandedSolve 3 2 3 (fun _ => !![(2 : ℝ), 0; 0, 3]) (fun _ => !![(0 : ℝ), 1; 1, 0])
    (fun n i => n + i) = .ok s := by
  have hs : ∀ k ≤ 2, ((fun _ => !![(2 : ℝ), 0; 0, 3]) k).IsSymm := fun k _ => by
    ext i j; fin_cases i <;> fin_cases j <;> rfl
  rw [(C54_succeeds_iff_posDef 2 _ _ _ hs).1, posDef_blockTridiagonal 2 _ _ hs]
  have hd : ∀ a b : ℝ, 0 < a → 0 < b → (!![a, 0; 0, b] : Matrix (Fin 2) (Fin 2) ℝ).PosDef := by
    intro a b ha hb
    have : (!![a, 0; 0, b] : Matrix (Fin 2) (Fin 2) ℝ) = diagonal ![a, b] := by
      ext i j; fin_cases i <;> fin_cases j <;> rfl
    rw [this]
    refine PosDef.diagonal fun i => ?_
    fin_cases i
    · exact ha
    · exact hb
  have hstep : ∀ a b : ℝ, a ≠ 0 → b ≠ 0 →
      !![(2 : ℝ), 0; 0, 3] - !![(0 : ℝ), 1; 1, 0]ᵀ * (!![a, 0; 0, b]⁻¹ * !![(0 : ℝ), 1; 1, 0]) =
        !![2 - b⁻¹, 0; 0, 3 - a⁻¹] := by
    intro a b ha hb
    have : (!![a, 0; 0, b] : Matrix (Fin 2) (Fin 2) ℝ)⁻¹ = !![a⁻¹, 0; 0, b⁻¹] := by
      refine inv_eq_right_inv ?_
      ext i j; fin_cases i <;> fin_cases j <;> simp [ha, hb]
    have ht : (!![(0 : ℝ), 1; 1, 0])ᵀ = !![(0 : ℝ), 1; 1, 0] := by
      ext i j; fin_cases i <;> fin_cases j <;> rfl
    rw [this, ht]
    ext i j; fin_cases i <;> fin_cases j <;> simp
  intro n hn
  have h0 : pivot (fun _ => !![(2 : ℝ), 0; 0, 3]) (fun _ => !![(0 : ℝ), 1; 1, 0]) 0 =
      !![(2 : ℝ), 0; 0, 3] := rfl
  have h1 : pivot (fun _ => !![(2 : ℝ), 0; 0, 3]) (fun _ => !![(0 : ℝ), 1; 1, 0]) 1 =
      !![2 - 3⁻¹, 0; 0, 3 - 2⁻¹] := hstep 2 3 (by norm_num) (by norm_num)
  have h2 : pivot (fun _ => !![(2 : ℝ), 0; 0, 3]) (fun _ => !![(0 : ℝ), 1; 1, 0]) 2 =
      !![2 - (3 - 2⁻¹)⁻¹, 0; 0, 3 - (2 - 3⁻¹)⁻¹] := by
    show _ - _ * ((pivot _ _ 1)⁻¹ * _) = _
    rw [h1]
    exact hstep _ _ (by norm_num) (by norm_num)
  interval_cases n
  · rw [h0]; exact hd _ _ (by norm_num) (by norm_num)
  · rw [h1]; exact hd _ _ (by norm_num) (by norm_num)
  · rw [h2]; exact hd _ _ (by norm_num) (by norm_num)

end Verif
