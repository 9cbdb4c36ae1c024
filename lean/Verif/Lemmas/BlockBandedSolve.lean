import Mathlib.Tactic.NormNum
import Mathlib.Tactic.Abel
import Mathlib.Algebra.BigOperators.Fin
import Verif.Lemmas.Cholesky
import Verif.Spec.BlockBandedSolve

/-!
# The two recursions of `block_banded_solve`
-/

namespace Verif
open Matrix Spec

variable {D : Nat}

/-- The pivots. -/
noncomputable def pivot (A B : Nat → Matrix (Fin D) (Fin D) ℝ) : Nat → Matrix (Fin D) (Fin D) ℝ
  | 0 => A 0
  | n + 1 => A (n + 1) - (B n)ᵀ * ((pivot A B n)⁻¹ * B n)

/-- The right-hand side after the forward recursion. -/
noncomputable def reduced (A B : Nat → Matrix (Fin D) (Fin D) ℝ) (y : Nat → Fin D → ℝ) :
    Nat → Fin D → ℝ
  | 0 => y 0
  | n + 1 => y (n + 1) - (B n)ᵀ *ᵥ ((pivot A B n)⁻¹ *ᵥ reduced A B y n)

theorem isSymm_conj {W : Matrix (Fin D) (Fin D) ℝ} (h : W.IsSymm) (B : Matrix (Fin D) (Fin D) ℝ) :
    (Bᵀ * (W * B)).IsSymm := by
  show (Bᵀ * (W * B))ᵀ = _
  rw [transpose_mul, transpose_mul, h.eq, transpose_transpose, Matrix.mul_assoc]

theorem isSymm_inv {W : Matrix (Fin D) (Fin D) ℝ} (h : W.IsSymm) : W⁻¹.IsSymm := by
  show (W⁻¹)ᵀ = _
  rw [transpose_nonsing_inv, h.eq]

theorem half_smul_symm {W : Matrix (Fin D) (Fin D) ℝ} (h : W.IsSymm) : (0.5 : ℝ) • (W + Wᵀ) = W := by
  rw [h.eq, ← two_smul ℝ W, smul_smul]
  norm_num

theorem pivot_isSymm (A B : Nat → Matrix (Fin D) (Fin D) ℝ) (n : Nat)
    (hA : ∀ k ≤ n, (A k).IsSymm) : (pivot A B n).IsSymm := by
  induction n with
  | zero => exact hA 0 le_rfl
  | succ n ih => exact (hA (n + 1) le_rfl).sub (isSymm_conj (isSymm_inv (ih fun k hk => hA k (by omega))) _)

/-- What the forward recursion has computed. -/
structure FwdBand (A B : Nat → Matrix (Fin D) (Fin D) ℝ) (y : Nat → Fin D → ℝ) (n : Nat)
    (s : BandState D) : Prop where
  V : ∀ k ≤ n, IsChol (pivot A B k) (s.V k)
  x : ∀ k ≤ n, s.x k = reduced A B y k
  C : ∀ k < n, s.C k = (pivot A B k)⁻¹ * B k
  ldet : s.ldet = ∑ k ∈ Finset.range (n + 1), Real.log (pivot A B k).det

theorem bandForward_spec (A B : Nat → Matrix (Fin D) (Fin D) ℝ) (y : Nat → Fin D → ℝ) (n : Nat)
    (hA : ∀ k ≤ n + 1, (A k).IsSymm) (s : BandState D) (h : FwdBand A B y n s) :
    ((pivot A B (n + 1)).PosDef ∧
      ∃ s', bandForward A B y s n = .ok s' ∧ FwdBand A B y (n + 1) s') ∨
    (¬ (pivot A B (n + 1)).PosDef ∧ bandForward A B y s n = .error .exception) := by
  have hs := pivot_isSymm A B (n + 1) hA
  have hC : cholSolveM (s.V n) (B n) = (pivot A B n)⁻¹ * B n := (h.V n le_rfl).solveM _
  have hx : cholSolve (s.V n) (s.x n) = (pivot A B n)⁻¹ *ᵥ reduced A B y n := by
    rw [(h.V n le_rfl).solve, h.x n le_rfl]
  have hV : A (n + 1) - (B n)ᵀ * ((pivot A B n)⁻¹ * B n) = pivot A B (n + 1) := rfl
  unfold bandForward
  simp only [Function.update_self, hC, hV, half_smul_symm hs, hx]
  rcases chol_spec hs with ⟨hp, U, hU, hc⟩ | ⟨hp, hU⟩
  · refine Or.inl ⟨hp, ?_⟩
    rw [hU]
    refine ⟨_, rfl, ⟨fun k hk => ?_, fun k hk => ?_, fun k hk => ?_, ?_⟩⟩
    · by_cases e : k = n + 1
      · subst e; simpa using hc
      · simp only [Function.update_of_ne e]
        exact h.V k (by omega)
    · by_cases e : k = n + 1
      · subst e; simp [reduced]
      · simp only [Function.update_of_ne e]
        exact h.x k (by omega)
    · by_cases e : k = n
      · subst e; simp
      · simp only [Function.update_of_ne e]
        exact h.C k (by omega)
    · simp only
      rw [h.ldet, hc.logdet, Finset.sum_range_succ _ (n + 1)]
  · refine Or.inr ⟨hp, ?_⟩
    rw [hU]
    rfl

theorem bandForwardLoop_spec (A B : Nat → Matrix (Fin D) (Fin D) ℝ) (y : Nat → Fin D → ℝ)
    (s : BandState D) (h : FwdBand A B y 0 s) (M : Nat) (hA : ∀ k ≤ M, (A k).IsSymm) :
    ((∀ k ≤ M, 1 ≤ k → (pivot A B k).PosDef) ∧
      ∃ s', (List.range M).foldlM (bandForward A B y) s = .ok s' ∧ FwdBand A B y M s') ∨
    ((∃ k ≤ M, ¬ (pivot A B k).PosDef) ∧
      (List.range M).foldlM (bandForward A B y) s = .error .exception) := by
  induction M with
  | zero => exact Or.inl ⟨fun k hk h1 => by omega, s, rfl, h⟩
  | succ M ih =>
    rw [List.range_succ, List.foldlM_append]
    rcases ih fun k hk => hA k (by omega) with ⟨hp, s', hs', hf⟩ | ⟨⟨k, hk, hp⟩, he⟩
    · rw [hs']
      rcases bandForward_spec A B y M hA s' hf with ⟨hp', s'', hs'', hf'⟩ | ⟨hp', he⟩
      · refine Or.inl ⟨fun k hk h1 => ?_, s'', ?_, hf'⟩
        · rcases Nat.lt_or_ge M k with hlt | hge
          · rw [show k = M + 1 by omega]; exact hp'
          · exact hp k hge h1
        · show (bandForward A B y s' M >>= fun t => pure t) = _
          rw [hs'']
          rfl
      · refine Or.inr ⟨⟨M + 1, le_rfl, hp'⟩, ?_⟩
        show (bandForward A B y s' M >>= fun t => pure t) = _
        rw [he]
        rfl
    · refine Or.inr ⟨⟨k, by omega, hp⟩, ?_⟩
      rw [he]
      rfl

/-- What the backward recursion has computed from block `n` on. -/
structure BwdBand (A B : Nat → Matrix (Fin D) (Fin D) ℝ) (y : Nat → Fin D → ℝ) (M n : Nat)
    (s : BandState D) : Prop where
  V : ∀ k < n, IsChol (pivot A B k) (s.V k)
  x : ∀ k < n, s.x k = reduced A B y k
  C : ∀ k < n, k < M → s.C k = (pivot A B k)⁻¹ * B k
  ldet : s.ldet = ∑ k ∈ Finset.range (M + 1), Real.log (pivot A B k).det
  xlast : s.x M = (pivot A B M)⁻¹ *ᵥ reduced A B y M
  xs : ∀ k, n ≤ k → k < M → s.x k = (pivot A B k)⁻¹ *ᵥ (reduced A B y k - B k *ᵥ s.x (k + 1))
  Vlast : s.V M = (pivot A B M)⁻¹
  Vsymm : ∀ k, n ≤ k → k ≤ M → (s.V k).IsSymm
  Vs : ∀ k, n ≤ k → k < M → s.V k = (pivot A B k)⁻¹ +
    ((pivot A B k)⁻¹ * B k) * (s.V (k + 1) * ((pivot A B k)⁻¹ * B k)ᵀ)
  Cs : ∀ k, n ≤ k → k < M → s.C k = -(((pivot A B k)⁻¹ * B k) * s.V (k + 1))

theorem bandBackward_spec (A B : Nat → Matrix (Fin D) (Fin D) ℝ) (y : Nat → Fin D → ℝ) (M n : Nat)
    (hA : ∀ k ≤ n, (A k).IsSymm) (hn : n < M) (s : BandState D) (h : BwdBand A B y M (n + 1) s) :
    BwdBand A B y M n (bandBackward B s n) := by
  have hs := pivot_isSymm A B n hA
  have hV := h.V n (by omega)
  have hC := h.C n (by omega) hn
  have hx := h.x n (by omega)
  have hsym : ((pivot A B n)⁻¹ + ((pivot A B n)⁻¹ * B n) *
      (s.V (n + 1) * ((pivot A B n)⁻¹ * B n)ᵀ)).IsSymm := by
    refine (isSymm_inv hs).add ?_
    have := isSymm_conj (h.Vsymm (n + 1) le_rfl (by omega)) ((pivot A B n)⁻¹ * B n)ᵀ
    rwa [transpose_transpose] at this
  have hVn : (bandBackward B s n).V n = (pivot A B n)⁻¹ + ((pivot A B n)⁻¹ * B n) *
      (s.V (n + 1) * ((pivot A B n)⁻¹ * B n)ᵀ) := by
    unfold bandBackward
    simp only [Function.update_self, hV.inv, hC]
    exact half_smul_symm hsym
  have hVk : ∀ k, k ≠ n → (bandBackward B s n).V k = s.V k := by
    intro k hk
    unfold bandBackward
    simp only [Function.update_of_ne hk]
  have hxn : (bandBackward B s n).x n =
      (pivot A B n)⁻¹ *ᵥ (reduced A B y n - B n *ᵥ s.x (n + 1)) := by
    unfold bandBackward
    simp only [Function.update_self, hV.solve, hx]
  have hxk : ∀ k, k ≠ n → (bandBackward B s n).x k = s.x k := by
    intro k hk
    unfold bandBackward
    simp only [Function.update_of_ne hk]
  have hCn : (bandBackward B s n).C n = -(((pivot A B n)⁻¹ * B n) * s.V (n + 1)) := by
    unfold bandBackward
    simp only [Function.update_self, hC, Function.update_of_ne (show n + 1 ≠ n by omega)]
  have hCk : ∀ k, k ≠ n → (bandBackward B s n).C k = s.C k := by
    intro k hk
    unfold bandBackward
    simp only [Function.update_of_ne hk]
  constructor
  · intro k hk
    rw [hVk k (by omega)]
    exact h.V k (by omega)
  · intro k hk
    rw [hxk k (by omega)]
    exact h.x k (by omega)
  · intro k hk hkM
    rw [hCk k (by omega)]
    exact h.C k (by omega) hkM
  · exact h.ldet
  · rw [hxk M (by omega)]
    exact h.xlast
  · intro k hk hkM
    rw [hxk (k + 1) (by omega)]
    by_cases e : k = n
    · subst e; exact hxn
    · rw [hxk k e]
      exact h.xs k (by omega) hkM
  · rw [hVk M (by omega)]
    exact h.Vlast
  · intro k hk hkM
    by_cases e : k = n
    · subst e; rw [hVn]; exact hsym
    · rw [hVk k e]
      exact h.Vsymm k (by omega) hkM
  · intro k hk hkM
    rw [hVk (k + 1) (by omega)]
    by_cases e : k = n
    · subst e; exact hVn
    · rw [hVk k e]
      exact h.Vs k (by omega) hkM
  · intro k hk hkM
    rw [hVk (k + 1) (by omega)]
    by_cases e : k = n
    · subst e; exact hCn
    · rw [hCk k e]
      exact h.Cs k (by omega) hkM

theorem bandBackwardLoop_spec (A B : Nat → Matrix (Fin D) (Fin D) ℝ) (y : Nat → Fin D → ℝ) (M : Nat)
    (hA : ∀ k ≤ M, (A k).IsSymm) (n : Nat) (hn : n ≤ M) (s : BandState D)
    (h : BwdBand A B y M n s) : BwdBand A B y M 0 ((List.range n).reverse.foldl (bandBackward B) s) := by
  induction n generalizing s with
  | zero => exact h
  | succ n ih =>
    rw [List.range_succ, List.reverse_append, List.reverse_singleton, List.singleton_append,
      List.foldl_cons]
    exact ih (by omega) _ (bandBackward_spec A B y M n (fun k hk => hA k (by omega)) (by omega) s h)

/-- The whole function. -/
theorem blockBandedSolve_spec (A B : Nat → Matrix (Fin D) (Fin D) ℝ) (y : Nat → Fin D → ℝ) (M : Nat)
    (hA : ∀ k ≤ M, (A k).IsSymm) :
    ((∀ k ≤ M, (pivot A B k).PosDef) ∧
      ∃ s, blockBandedSolve (M + 1) M (M + 1) A B y = .ok s ∧ BwdBand A B y M 0 s) ∨
    ((∃ k ≤ M, ¬ (pivot A B k).PosDef) ∧
      blockBandedSolve (M + 1) M (M + 1) A B y = .error .exception) := by
  unfold blockBandedSolve
  simp only [ne_eq, not_true_eq_false, if_false, Nat.add_sub_cancel]
  rcases chol_spec (hA 0 (Nat.zero_le _)) with ⟨hp0, U, hU, hc⟩ | ⟨hp0, hU⟩
  swap
  · refine Or.inr ⟨⟨0, Nat.zero_le _, hp0⟩, ?_⟩
    rw [hU]
    rfl
  rw [hU]
  have h0 : FwdBand A B y 0 (⟨Function.update (fun _ => 0) 0 U, fun _ => 0,
      Function.update (fun _ => 0) 0 (y 0), cholLogdet U⟩ : BandState D) := by
    refine ⟨fun k hk => ?_, fun k hk => ?_, fun k hk => by omega, ?_⟩
    · rw [Nat.le_zero.1 hk]; simpa [pivot] using hc
    · rw [Nat.le_zero.1 hk]; simp [reduced]
    · simp [pivot, hc.logdet]
  rcases bandForwardLoop_spec A B y _ h0 M hA with ⟨hp, s', hs', hf⟩ | ⟨hp, he⟩
  swap
  · refine Or.inr ⟨hp, ?_⟩
    show Except.bind (List.foldlM _ _ _) _ = _
    rw [he]
    rfl
  refine Or.inl ⟨fun k hk => ?_, ?_⟩
  · rcases Nat.eq_zero_or_pos k with rfl | hk0
    · exact hp0
    · exact hp k hk hk0
  refine ⟨_, ?_, bandBackwardLoop_spec A B y M hA M le_rfl { s' with
    x := Function.update s'.x M (cholSolve (s'.V M) (s'.x M))
    V := Function.update s'.V M (cholInv (s'.V M)) } ?_⟩
  · show Except.bind (List.foldlM _ _ _) _ = _
    rw [hs']
    rfl
  · refine ⟨fun k hk => ?_, fun k hk => ?_, fun k _ hk => ?_, hf.ldet, ?_, fun k h1 h2 => by omega, ?_,
      fun k h1 h2 => ?_, fun k h1 h2 => by omega, fun k h1 h2 => by omega⟩
    · simp only [Function.update_of_ne (show k ≠ M by omega)]
      exact hf.V k (by omega)
    · simp only [Function.update_of_ne (show k ≠ M by omega)]
      exact hf.x k (by omega)
    · exact hf.C k hk
    · simp only [Function.update_self]
      rw [(hf.V M le_rfl).solve, hf.x M le_rfl]
    · simp only [Function.update_self]
      exact (hf.V M le_rfl).inv
    · obtain rfl : k = M := by omega
      simp only [Function.update_self]
      rw [(hf.V k le_rfl).inv]
      exact isSymm_inv (pivot_isSymm A B k hA)

end Verif
