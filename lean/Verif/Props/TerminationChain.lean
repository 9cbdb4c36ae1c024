import Mathlib.LinearAlgebra.Matrix.Block
import Verif.Props.TerminationModels
import Verif.Props.StateSpace

/-!
# C91 for the linear state-space model
-/

namespace Verif
open Spec Filter Topology Matrix

/-- a larger precision has a larger determinant -/
theorem log_det_mono {ι : Type*} [Fintype ι] [DecidableEq ι] (A B : Matrix ι ι ℝ) (hA : A.PosDef) (hB : B.PosDef)
    (h : (B - A).PosSemidef) : Real.log A.det ≤ Real.log B.det := by
  have h1 := frob_inv_le B A hB hA
  have h2 := frob_nonneg hB.inv.posSemidef h
  rw [frob_sub_right, frob_inv_self B hB] at h2
  linarith

section
variable {M D : Nat}

/-- what the transitions leave of the states -/
def chainResidual (A : Fin M → Matrix (Fin D) (Fin D) ℝ) : Matrix (Fin (M + 1) × Fin D) (Fin (M + 1) × Fin D) ℝ :=
  of fun p q => (if p = q then 1 else 0)
    - Fin.cases (motive := fun _ => ℝ) 0 (fun m => if m.castSucc = q.1 then A m p.2 q.2 else 0) p.1

theorem chainResidual_det (A : Fin M → Matrix (Fin D) (Fin D) ℝ) : (chainResidual A).det = 1 := by
  have ht : BlockTriangular (chainResidual A)ᵀ Prod.fst := by
    rintro ⟨n, i⟩ ⟨k, j⟩ h
    change (if (k, j) = (n, i) then (1 : ℝ) else 0)
      - Fin.cases (motive := fun _ => ℝ) 0 (fun m => if m.castSucc = n then A m j i else 0) k = 0
    change k < n at h
    rw [if_neg fun e => h.ne (Prod.ext_iff.1 e).1]
    refine Fin.cases (fun _ => ?_) (fun m h => ?_) k h
    · simp
    · rw [Fin.cases_succ, if_neg, sub_zero]
      rintro rfl
      exact absurd h (not_lt.2 (Fin.castSucc_lt_succ (i := m)).le)
  rw [← det_transpose, ht.det_fintype]
  refine Finset.prod_eq_one fun n _ => ?_
  have e : (chainResidual A)ᵀ.toSquareBlock Prod.fst n = 1 := by
    ext ⟨⟨k, i⟩, hk⟩ ⟨⟨l, j⟩, hl⟩
    obtain rfl : l = n := hl
    obtain rfl : k = l := hk
    change (if (k, j) = (k, i) then (1 : ℝ) else 0)
      - Fin.cases (motive := fun _ => ℝ) 0 (fun m => if m.castSucc = k then A m j i else 0) k = _
    have h0 : ∀ k : Fin (M + 1),
        Fin.cases (motive := fun _ => ℝ) 0 (fun m => if m.castSucc = k then A m j i else 0) k = 0 :=
      Fin.cases rfl fun m => if_neg (Fin.castSucc_lt_succ (i := m)).ne
    rw [h0, sub_zero, one_apply]
    simp [eq_comm]
  rw [e, det_one]

theorem chainResidual_mulVec (A : Fin M → Matrix (Fin D) (Fin D) ℝ) (x : Fin (M + 1) × Fin D → ℝ) :
    (∀ i, (chainResidual A).mulVec x (0, i) = x (0, i)) ∧
    ∀ m i, (chainResidual A).mulVec x (m.succ, i) = x (m.succ, i) - ∑ j, A m i j * x (m.castSucc, j) := by
  constructor
  · intro i
    have : ∀ q, chainResidual A (0, i) q = if (0, i) = q then 1 else 0 := fun q => sub_zero _
    simp [mulVec, dotProduct, this]
  · intro m i
    have : ∀ q, chainResidual A (m.succ, i) q = (if (m.succ, i) = q then 1 else 0) - if m.castSucc = q.1 then A m i q.2 else 0 :=
      fun q => rfl
    simp only [mulVec, dotProduct, this, sub_mul, Finset.sum_sub_distrib]
    congr 1
    · simp
    · rw [Fintype.sum_prod_type]
      simp

/-- the precisions of the first state and of the transitions -/
def chainNoise (L : Matrix (Fin D) (Fin D) ℝ) : Matrix (Fin (M + 1) × Fin D) (Fin (M + 1) × Fin D) ℝ :=
  (blockDiagonal (Fin.cases (motive := fun _ => Matrix (Fin D) (Fin D) ℝ) L fun _ : Fin M => 1)).submatrix
    (Equiv.prodComm _ _) (Equiv.prodComm _ _)

theorem chainNoise_det (L : Matrix (Fin D) (Fin D) ℝ) : (chainNoise (M := M) L).det = L.det := by
  rw [chainNoise, det_submatrix_equiv_self, det_blockDiagonal, Fin.prod_univ_succ]
  simp

theorem chainNoise_quad (L : Matrix (Fin D) (Fin D) ℝ) (y : Fin (M + 1) × Fin D → ℝ) :
    y ⬝ᵥ (chainNoise L).mulVec y = (∑ i, ∑ j, L i j * (y (0, i) * y (0, j))) + ∑ m : Fin M, ∑ i, y (m.succ, i) * y (m.succ, i) := by
  have e : ∀ n i, (chainNoise L).mulVec y (n, i)
      = ∑ j, (Fin.cases (motive := fun _ => Matrix (Fin D) (Fin D) ℝ) L (fun _ : Fin M => 1) n : Matrix (Fin D) (Fin D) ℝ) i j * y (n, j) := by
    intro n i
    simp only [mulVec, dotProduct, chainNoise, submatrix_apply, Equiv.prodComm_apply, Prod.swap_prod_mk, blockDiagonal_apply]
    rw [Fintype.sum_prod_type]
    simp [ite_mul]
  rw [dotProduct, Fintype.sum_prod_type, Fin.sum_univ_succ]
  simp only [e, Fin.cases_zero, Fin.cases_succ]
  congr 1
  · refine Finset.sum_congr rfl fun i _ => ?_
    rw [Finset.mul_sum]
    exact Finset.sum_congr rfl fun j _ => by ring
  · simp [one_apply]

theorem chainNoise_posSemidef (L : Matrix (Fin D) (Fin D) ℝ) (hL : L.PosDef) : (chainNoise (M := M) L).PosSemidef := by
  refine PosSemidef.of_dotProduct_mulVec_nonneg ?_ fun y => ?_
  · ext ⟨n, i⟩ ⟨k, j⟩
    change (if k = n then Fin.cases (motive := fun _ => Matrix (Fin D) (Fin D) ℝ) L (fun _ : Fin M => 1) k j i else 0)
      = if n = k then Fin.cases (motive := fun _ => Matrix (Fin D) (Fin D) ℝ) L (fun _ : Fin M => 1) n i j else 0
    by_cases h : n = k
    · subst h
      rw [if_pos rfl, if_pos rfl]
      refine Fin.cases ?_ (fun m => ?_) n
      · exact hL.isHermitian.apply i j
      · simp [one_apply, eq_comm]
    · rw [if_neg h, if_neg fun e => h e.symm]
  · rw [star_trivial, chainNoise_quad]
    have h0 := hL.posSemidef.dotProduct_mulVec_nonneg fun i => y (0, i)
    rw [star_trivial] at h0
    have e0 : ∑ i, ∑ j, L i j * (y (0, i) * y (0, j)) = (fun i => y (0, i)) ⬝ᵥ L.mulVec fun i => y (0, i) := by
      simp only [dotProduct, mulVec, Finset.mul_sum]
      exact Finset.sum_congr rfl fun i _ => Finset.sum_congr rfl fun j _ => by ring
    rw [e0]
    exact add_nonneg h0 (Finset.sum_nonneg fun m _ => Finset.sum_nonneg fun i _ => mul_self_nonneg _)

variable {κ : Type} [Fintype κ]

/-- The uncertainty about the dynamics makes the precision of the chain larger; its determinant is at least that of the first
state. -/
theorem gmcPhi_det (v : GWIx (Fin D) → ℝ) (hv : (gw2 v).PosDef)
    (A : Fin M → Fin D → GIx (Fin D ⊕ κ) → ℝ) (hA : ∀ m d, SecondMoment (A m d)) (z : InpIx M κ → ℝ) :
    Real.log (gw2 v).det ≤ Real.log ((-2 : ℝ) • g1 (gmcFull (gmcPhi v (unitDyn A) z))).det := by
  have hΛ := gmcPhi_posDef v hv A hA z
  let R := chainResidual fun m => (of fun i j => g0 (A m i) (.inl j) : Matrix (Fin D) (Fin D) ℝ)
  let W := Rᴴ * chainNoise (M := M) (gw2 v) * R
  have hW : W.PosSemidef := (chainNoise_posSemidef (gw2 v) hv).conjTranspose_mul_mul_same R
  have hd : W.det = (gw2 v).det := by
    have hR : R.det = 1 := chainResidual_det _
    rw [det_mul, det_mul, det_conjTranspose, hR, chainNoise_det]
    simp
  have hWp : W.PosDef := hW.posDef_iff_isUnit.2 ((isUnit_iff_isUnit_det _).2 (by rw [hd]; exact hv.det_pos.ne'.isUnit))
  rw [← hd]
  refine log_det_mono W _ hWp hΛ (PosSemidef.of_dotProduct_mulVec_nonneg (hΛ.isHermitian.sub hW.isHermitian) fun x => ?_)
  have eW : x ⬝ᵥ W.mulVec x = R.mulVec x ⬝ᵥ (chainNoise (gw2 v)).mulVec (R.mulVec x) := by
    rw [← mulVec_mulVec, ← mulVec_mulVec, dotProduct_mulVec, conjTranspose_eq_transpose_of_trivial, vecMul_transpose]
  have r := chainResidual_mulVec (fun m => (of fun i j => g0 (A m i) (.inl j) : Matrix (Fin D) (Fin D) ℝ)) x
  rw [star_trivial, sub_mulVec, dotProduct_sub, eW, chainNoise_quad, smul_mulVec, dotProduct_smul, smul_eq_mul, gmcPhi_quad]
  have k0 : ∀ m d j, d0 (unitDyn A) m d j = g0 (A m d) j := fun m d j => mul_one _
  have k1 : ∀ m d i j, d1 (unitDyn A) m d i j = g1 (A m d) i j := fun m d i j => mul_one _
  have k2 : ∀ m d, d2 (unitDyn A) m d = 1 := fun m d => mul_one _
  simp only [R, r.1, r.2, k0, k1, k2, one_mul, of_apply]
  rw [add_sub_add_left_eq_sub, ← Finset.sum_sub_distrib]
  exact Finset.sum_nonneg fun m _ =>
    sub_nonneg.2 (transition_quad (A m) (hA m) (fun i => x (m.castSucc, i)) fun i => x (m.succ, i))

/-- the mean of the logarithm of the density of a transition -/
theorem transition_le (A : Fin D → GIx (Fin D ⊕ κ) → ℝ) (hA : ∀ d, SecondMoment (A d)) (z : κ → ℝ) (x x' : Fin D → ℝ) :
    (∑ i, (∑ k, g0 (A i) (.inr k) * z k) * x' i)
        - (∑ i, (∑ k, (∑ d, g1 (A d) (.inl i) (.inr k)) * z k) * x i)
        - 0.5 * (∑ i, 1 * (x' i * x' i))
        - 0.5 * (∑ i, ∑ j, (∑ d, g1 (A d) (.inl i) (.inl j)) * (x i * x j))
        + (∑ i, ∑ j, g0 (A j) (.inl i) * (x i * x' j))
        + 0.5 * (∑ _d : Fin D, (0 : ℝ))
        - 0.5 * ∑ k, ∑ l, z k * z l * ∑ d, g1 (A d) (.inr k) (.inr l) ≤ 0 := by
  choose C hC e using hA
  have e' : ∀ d p q, g1 (A d) p q = C d p q + g0 (A d) p * g0 (A d) q := fun d p q => by rw [e]; rfl
  have h := gmc_transition (fun d p => g0 (A d) p) (fun _ => 1) z x x'
  simp only [one_mul, Real.log_one] at h
  have hq : ∀ d, 0 ≤ (∑ i, ∑ j, C d (.inl i) (.inl j) * (x i * x j)) + 2 * (∑ i, ∑ k, C d (.inl i) (.inr k) * z k * x i)
      + ∑ k, ∑ l, z k * z l * C d (.inr k) (.inr l) := by
    intro d
    have h1 := (hC d).dotProduct_mulVec_nonneg (Sum.elim x z)
    rw [star_trivial] at h1
    have s1 : ∑ k, ∑ i, z k * (C d (.inr k) (.inl i) * x i) = ∑ i, ∑ k, C d (.inl i) (.inr k) * z k * x i := by
      rw [Finset.sum_comm]
      refine Finset.sum_congr rfl fun i _ => Finset.sum_congr rfl fun k _ => ?_
      have := (hC d).isHermitian.apply (.inl i) (.inr k)
      rw [star_trivial] at this
      rw [this]
      ring
    have s2 : ∑ i, ∑ k, x i * (C d (.inl i) (.inr k) * z k) = ∑ i, ∑ k, C d (.inl i) (.inr k) * z k * x i :=
      Finset.sum_congr rfl fun i _ => Finset.sum_congr rfl fun k _ => by ring
    have s3 : ∑ i, ∑ j, x i * (C d (.inl i) (.inl j) * x j) = ∑ i, ∑ j, C d (.inl i) (.inl j) * (x i * x j) :=
      Finset.sum_congr rfl fun i _ => Finset.sum_congr rfl fun k _ => by ring
    have s4 : ∑ k, ∑ l, z k * (C d (.inr k) (.inr l) * z l) = ∑ k, ∑ l, z k * z l * C d (.inr k) (.inr l) :=
      Finset.sum_congr rfl fun i _ => Finset.sum_congr rfl fun k _ => by ring
    simp only [dotProduct, mulVec, Fintype.sum_sum_type, Sum.elim_inl, Sum.elim_inr, mul_add, Finset.mul_sum,
      Finset.sum_add_distrib, s1, s2, s3, s4] at h1
    linarith
  have hs := Finset.sum_nonneg fun d (_ : d ∈ Finset.univ) => hq d
  rw [Finset.sum_add_distrib, Finset.sum_add_distrib, ← Finset.mul_sum] at hs
  have t1 : ∑ i, (∑ k, (∑ d, C d (.inl i) (.inr k)) * z k) * x i = ∑ d, ∑ i, ∑ k, C d (.inl i) (.inr k) * z k * x i := by
    simp only [Finset.sum_mul]
    rw [Finset.sum_congr rfl fun i _ => Finset.sum_comm, Finset.sum_comm]
  have t2 : ∑ i, ∑ j, (∑ d, C d (.inl i) (.inl j)) * (x i * x j) = ∑ d, ∑ i, ∑ j, C d (.inl i) (.inl j) * (x i * x j) := by
    simp only [Finset.sum_mul]
    rw [Finset.sum_congr rfl fun i _ => Finset.sum_comm, Finset.sum_comm]
  have t3 : ∑ k, ∑ l, z k * z l * ∑ d, C d (.inr k) (.inr l) = ∑ d, ∑ k, ∑ l, z k * z l * C d (.inr k) (.inr l) := by
    simp only [Finset.mul_sum]
    rw [Finset.sum_congr rfl fun i _ => Finset.sum_comm, Finset.sum_comm]
  have hn : 0 ≤ ∑ d, 0.5 * (x' d - ((∑ i, g0 (A d) (.inl i) * x i) + ∑ k, g0 (A d) (.inr k) * z k)) ^ 2 :=
    Finset.sum_nonneg fun d _ => by positivity
  simp only [mul_zero, zero_sub, Finset.sum_neg_distrib] at h
  simp only [e', Finset.sum_add_distrib, add_mul, mul_add, one_mul]
  rw [t1, t2, t3]
  linarith

/-- The chain with its prior, given the moments of the dynamics: the normalising term of its prior is at most that of the
distribution with these parameters. -/
theorem gmc_prior_cgf (mu : Fin D → ℝ) (L : Matrix (Fin D) (Fin D) ℝ) (hL : L.PosDef)
    (A : Fin M → Fin D → GIx (Fin D ⊕ κ) → ℝ) (hA : ∀ m d, SecondMoment (A m d)) (z : Fin M → κ → ℝ) :
    gmcCgfP (wrapGW (toGaussianGamma (gaussianFixed mu)) (wishartFixed L)) (unitDyn A) (inpFixed z)
      ≤ gmcCgf (gmcPhi (wrapGW (toGaussianGamma (gaussianFixed mu)) (wishartFixed L)) (unitDyn A) (inpFixed z)) := by
  rw [fixedParent]
  set v : GWIx (Fin D) → ℝ := mkGW (L.mulVec mu) (mu ⬝ᵥ L.mulVec mu) L (Real.log L.det) with hv
  have hv2 : gw2 v = L := rfl
  have hΛ := gmcPhi_posDef v (by rw [hv2]; exact hL) A hA (inpFixed z)
  have hdet := gmcPhi_det v (by rw [hv2]; exact hL) A hA (inpFixed z)
  set phi := gmcPhi v (unitDyn A) (inpFixed z) with hphi
  -- the most probable states
  let x : Fin (M + 1) × Fin D → ℝ := ((-2 : ℝ) • g1 (gmcFull phi))⁻¹.mulVec (g0 (gmcFull phi))
  have h1 := gmc_logpdf_full phi hΛ x
  have h2 := gmc_logpdf (gmcFixed (chainStates x)) v (unitDyn A) (inpFixed z) 0
  have hF : gmcF M D = gaussianF (Fintype.card (Fin (M + 1) × Fin D)) := by
    simp only [gmcF, gaussianF, Fintype.card_prod, Fintype.card_fin]
    push_cast
    ring
  have hx : gmcFull phi ⬝ᵥ gaussianFixed x + gaussianCgf (gmcFull phi)
      = 0.5 * Real.log ((-2 : ℝ) • g1 (gmcFull phi)).det := by
    have hs := solve_eq _ hΛ (g0 (gmcFull phi))
    have hsx : x ⬝ᵥ ((-2 : ℝ) • g1 (gmcFull phi)).mulVec x = x ⬝ᵥ g0 (gmcFull phi) := congrArg (x ⬝ᵥ ·) hs
    rw [smul_mulVec, dotProduct_smul, smul_eq_mul] at hsx
    have ec : gaussianCgf (gmcFull phi)
        = -0.5 * (x ⬝ᵥ g0 (gmcFull phi)) + 0.5 * Real.log ((-2 : ℝ) • g1 (gmcFull phi)).det := rfl
    have ed : gmcFull phi ⬝ᵥ gaussianFixed x = x ⬝ᵥ g0 (gmcFull phi) + x ⬝ᵥ (g1 (gmcFull phi)).mulVec x := by
      rw [dotProduct_comm, g_dot, ← frob_outer]
      rfl
    rw [ec, ed]
    linarith
  have hq : logpdf (gmcFixed (chainStates x)) phi (gmcCgfP v (unitDyn A) (inpFixed z)) 0 ≤ 0.5 * Real.log L.det := by
    rw [hphi, h2]
    have k0 : ∀ m d j, d0 (unitDyn A) m d j = g0 (A m d) j := fun m d j => mul_one _
    have k1 : ∀ m d i j, d1 (unitDyn A) m d i j = g1 (A m d) i j := fun m d i j => mul_one _
    have k2 : ∀ m d, d2 (unitDyn A) m d = 1 := fun m d => mul_one _
    have k3 : ∀ m d, d3 (unitDyn A) m d = 0 := fun m d => add_zero _
    have hT := Finset.sum_nonpos fun m (_ : m ∈ Finset.univ) =>
      transition_le (A m) (hA m) (z m) (chainStates x m.castSucc) (chainStates x m.succ)
    have h0 := quad_le L hL mu (chainStates x 0)
    have f1 : ∑ i, gw0 v i * c0 (gmcFixed (chainStates x)) 0 i = mu ⬝ᵥ L.mulVec (chainStates x 0) := by
      change L.mulVec mu ⬝ᵥ chainStates x 0 = _
      rw [dotProduct_mulVec, ← mulVec_transpose, posDef_transpose hL]
    have f2 : ∑ i, ∑ j, gw2 v i j * c1 (gmcFixed (chainStates x)) 0 i j = chainStates x 0 ⬝ᵥ L.mulVec (chainStates x 0) := by
      change ∑ i, ∑ j, L i j * (chainStates x 0 i * chainStates x 0 j) = _
      simp only [dotProduct, mulVec, Finset.mul_sum]
      exact Finset.sum_congr rfl fun i _ => Finset.sum_congr rfl fun j _ => by ring
    have f3 : gw1 v = mu ⬝ᵥ L.mulVec mu := rfl
    have f4 : gw3 v = Real.log L.det := rfl
    simp only [k0, k1, k2, k3]
    rw [f1, f2, f3, f4]
    refine (add_le_add (add_le_add (?_ : _ ≤ 0.5 * Real.log L.det) hT) (le_refl (0 : ℝ))).trans_eq (by ring)
    linarith
  rw [logpdf_eq] at hq
  rw [logpdf_eq, logpdf_eq, hF] at h1
  rw [hv2] at hdet
  linarith

end

section
variable (P : SSParams)

/-- the number of observations -/
noncomputable def ssCount : ℝ := ∑ q : Fin P.J × Fin (P.M + 1), if P.mask q.1 q.2 then (1 : ℝ) else 0

/-- the upper bound of the lower bound -/
noncomputable def Spec.ssBound : ℝ :=
  ssCount P * ardF 1 + (gammaCgf ![-P.bt, P.at'] - gammaCgf ![-P.bt, P.at' + ssCount P / 2])

theorem ss_bound_le (data : Fin P.J → Fin (P.M + 1) → ℝ) (hP : SSValid P) (s : (ssNet P).State) (hs : SSState P data s)
    (hf : ∀ i j, P.mask i j = true → s.f SS.y (i, j) = ardF 1) : (ssNet P).bound s ≤ ssBound P := by
  obtain ⟨hc, hy⟩ := hs
  obtain ⟨ha, hb, hL, hac, hbc, hat, hbt⟩ := hP
  have hK : 0 ≤ ssCount P := Finset.sum_nonneg fun q _ => by split <;> norm_num
  have hal : ∀ d : Fin P.D ⊕ Fin P.K, (ssNet P).contribution SS.alpha s d ≤ 0 := fun d =>
    contribution_prior_le (ss_sound P) (fun _ => rfl) SS.alpha s (hc SS.alpha) d rfl
      ⟨neg_lt_zero.2 (hb d), by change 0 < 1 * P.aA d; rw [one_mul]; exact ha d⟩ (gamma_prior_cgf (P.aA d) (P.bA d)).le
  have hga : ∀ d : Fin P.D, (ssNet P).contribution SS.gamma s d ≤ 0 := fun d =>
    contribution_prior_le (ss_sound P) (fun _ => rfl) SS.gamma s (hc SS.gamma) d rfl
      ⟨neg_lt_zero.2 (hbc d), by change 0 < 1 * P.aC d; rw [one_mul]; exact hac d⟩ (gamma_prior_cgf (P.aC d) (P.bC d)).le
  have hA : ∀ i : Fin P.D, (ssNet P).contribution SS.a s i ≤ 0 := by
    intro i
    have hl : ∀ d : Fin P.D ⊕ Fin P.K, s.u SS.alpha d (1 : Fin 2) ≤ Real.log (s.u SS.alpha d (0 : Fin 2)) := by
      intro d
      obtain ⟨da, ea, -⟩ := hc SS.alpha d rfl
      have ea' : s.u SS.alpha d = gammaMoments (s.phi SS.alpha d) := ea
      rw [ea']
      exact gamma_log_le _ da.1 da.2
    obtain ⟨p1, p2⟩ := ard_prior_cgf (P.muA i) (fun d => s.u SS.alpha d) (fun d => ss_alpha_pos hc d) hl
    exact contribution_prior_le (ss_sound P) (fun _ => rfl) SS.a s (hc SS.a) i rfl p1 p2
  have hC : ∀ i : Fin P.J, (ssNet P).contribution SS.c s i ≤ 0 := by
    intro i
    have hl : ∀ d : Fin P.D, s.u SS.gamma d (1 : Fin 2) ≤ Real.log (s.u SS.gamma d (0 : Fin 2)) := by
      intro d
      obtain ⟨da, ea, -⟩ := hc SS.gamma d rfl
      have ea' : s.u SS.gamma d = gammaMoments (s.phi SS.gamma d) := ea
      rw [ea']
      exact gamma_log_le _ da.1 da.2
    obtain ⟨p1, p2⟩ := ard_prior_cgf (P.muC i) (fun d => s.u SS.gamma d) (fun d => ss_gamma_pos hc d) hl
    exact contribution_prior_le (ss_sound P) (fun _ => rfl) SS.c s (hc SS.c) i rfl p1 p2
  have hx : (ssNet P).contribution SS.x s () ≤ 0 := by
    have hsy := dynSym_eq P.M P.D (Fin P.K) _ (ss_dyn_symm hc)
    have q1 : ((-2 : ℝ) • g1 (gmcFull (gmcPhi (ssInitial P) (dynSym (unitDyn fun (_ : Fin P.M) (d : Fin P.D) => s.u SS.a d))
        (inpFixed P.z)))).PosDef := by
      rw [hsy]
      refine gmcPhi_posDef _ ?_ _ (fun _ d => ss_second_a hc d) _
      rw [ssInitial, fixedParent]
      exact hL
    have q2 : gmcCgfP (ssInitial P) (dynSym (unitDyn fun (_ : Fin P.M) (d : Fin P.D) => s.u SS.a d)) (inpFixed P.z)
        ≤ gmcCgf (gmcPhi (ssInitial P) (dynSym (unitDyn fun (_ : Fin P.M) (d : Fin P.D) => s.u SS.a d)) (inpFixed P.z)) := by
      rw [hsy]
      exact gmc_prior_cgf P.mu0 P.Lambda0 hL _ (fun _ d => ss_second_a hc d) P.z
    exact contribution_prior_le (ss_sound P) (fun _ => rfl) SS.x s (hc SS.x) () rfl q1 q2
  have htau : (ssNet P).contribution SS.tau s () ≤
      gammaCgf ![-P.bt, P.at'] - gammaCgf ![-P.bt, P.at' + ssCount P / 2] - ssCount P / 2 * s.u SS.tau () (1 : Fin 2) :=
    (contribution_le (ss_sound P) (fun _ => rfl) SS.tau s (hc SS.tau) () rfl
      (![-P.bt, P.at' + ssCount P / 2] : Fin 2 → ℝ)
      ⟨neg_lt_zero.2 hbt, by change 0 < P.at' + ssCount P / 2; positivity⟩).trans_eq
      (gamma_tilt P.at' P.bt (ssCount P / 2) (s.u SS.tau ()))
  have hyy : ∀ q : Fin P.J × Fin (P.M + 1), P.mask q.1 q.2 = true →
      (ssNet P).contribution SS.y s q ≤ ardF 1 + 1 / 2 * s.u SS.tau () (1 : Fin 2) := by
    intro q hm
    have h := observation_le (data q.1 q.2) _ (s.u SS.tau ())
      (dotMoments_variance (ss_second_c hc q.1) (ss_second_x hc q.2)) (ss_tau_pos hc).le
    have e : s.u SS.y q = (![data q.1 q.2, data q.1 q.2 * data q.1 q.2] : Fin 2 → ℝ) := hy q.1 q.2 hm
    have ec := Net.contribution_eq (G := ssNet P) SS.y s q
    rw [show (ssNet P).observed SS.y q = true from hm, if_pos rfl, show s.f SS.y q = ardF 1 from hf q.1 q.2 hm, e] at ec
    rw [ec, add_comm]
    exact add_le_add_right h _
  have hyy' : ∑ q : Fin P.J × Fin (P.M + 1), (if P.mask q.1 q.2 then (ssNet P).contribution SS.y s q else 0)
      ≤ ssCount P * (ardF 1 + 1 / 2 * s.u SS.tau () (1 : Fin 2)) := by
    rw [ssCount, Finset.sum_mul]
    refine Finset.sum_le_sum fun q _ => ?_
    by_cases hm : P.mask q.1 q.2 = true
    · rw [if_pos hm, if_pos hm, one_mul]
      exact hyy q hm
    · rw [if_neg hm, if_neg hm, zero_mul]
  have hz : ∀ {A : Type} [Fintype A] (m : A → Bool) (c : A → ℝ), (∀ a, c a ≤ 0) → ∑ a, (if m a then c a else 0) ≤ 0 :=
    fun m c hc => Finset.sum_nonpos fun a _ => by split <;> [exact hc a; exact le_refl 0]
  have htm : (if (ssNet P).mask SS.tau () = true then (ssNet P).contribution SS.tau s () else 0) ≤
      gammaCgf ![-P.bt, P.at'] - gammaCgf ![-P.bt, P.at' + ssCount P / 2] - ssCount P / 2 * s.u SS.tau () (1 : Fin 2) := by
    by_cases hm : (ssNet P).mask SS.tau () = true
    · rw [if_pos hm]
      exact htau
    · rw [if_neg hm]
      have h0 : ssCount P = 0 := Finset.sum_eq_zero fun q _ => if_neg fun h => hm (decide_eq_true ⟨q.1, q.2, h⟩)
      rw [h0]
      simp
  have hxm : (if (ssNet P).mask SS.x () = true then (ssNet P).contribution SS.x s () else 0) ≤ 0 := by
    split
    · exact hx
    · exact le_refl 0
  have e : (ssNet P).bound s
      = (∑ d : Fin P.D ⊕ Fin P.K, if (ssNet P).mask SS.alpha d then (ssNet P).contribution SS.alpha s d else 0)
        + (∑ d : Fin P.D, if (ssNet P).mask SS.a d then (ssNet P).contribution SS.a s d else 0)
        + (if (ssNet P).mask SS.x () = true then (ssNet P).contribution SS.x s () else 0)
        + (∑ d : Fin P.D, if (ssNet P).mask SS.gamma d then (ssNet P).contribution SS.gamma s d else 0)
        + (∑ d : Fin P.J, if (ssNet P).mask SS.c d then (ssNet P).contribution SS.c s d else 0)
        + (if (ssNet P).mask SS.tau () = true then (ssNet P).contribution SS.tau s () else 0)
        + ∑ q : Fin P.J × Fin (P.M + 1), (if P.mask q.1 q.2 then (ssNet P).contribution SS.y s q else 0) := by
    refine (ss_sum _).trans ?_
    refine congrArg₂ (· + ·) (congrArg₂ (· + ·) (congrArg₂ (· + ·) (congrArg₂ (· + ·) (congrArg₂ (· + ·) rfl ?_) rfl) rfl) ?_) rfl
    · exact Fintype.sum_unique (ι := Unit) _
    · exact Fintype.sum_unique (ι := Unit) _
  have z1 := hz (fun d : Fin P.D ⊕ Fin P.K => (ssNet P).mask SS.alpha d)
    (fun d : Fin P.D ⊕ Fin P.K => (ssNet P).contribution SS.alpha s d) hal
  have z2 := hz (fun d : Fin P.D => (ssNet P).mask SS.a d) (fun d : Fin P.D => (ssNet P).contribution SS.a s d) hA
  have z3 := hz (fun d : Fin P.D => (ssNet P).mask SS.gamma d) (fun d : Fin P.D => (ssNet P).contribution SS.gamma s d) hga
  have z4 := hz (fun d : Fin P.J => (ssNet P).mask SS.c d) (fun d : Fin P.J => (ssNet P).contribution SS.c s d) hC
  have h1 := add_le_add (add_le_add (add_le_add (add_le_add (add_le_add (add_le_add z1 z2) hxm) z3) z4) htm) hyy'
  rw [e]
  refine h1.trans_eq ?_
  rw [ssBound]
  ring

theorem ss_step (data : Fin P.J → Fin (P.M + 1) → ℝ) (hP : SSValid P) (s : (ssNet P).State) (n : SS)
    (h : SSState P data s ∧ ∀ i j, P.mask i j = true → s.f SS.y (i, j) = ardF 1) :
    (SSState P data ((ssNet P).update n s) ∧ ∀ i j, P.mask i j = true → ((ssNet P).update n s).f SS.y (i, j) = ardF 1) ∧
      (ssNet P).bound s ≤ (ssNet P).bound ((ssNet P).update n s) :=
  have h' := C23_state_space P data hP s h.1 [n]
  ⟨⟨h'.2, h.2⟩, h'.1⟩

/-- **C91, state-space model** Whatever the data, the missing values, the inputs, the hyperparameters, the current distributions,
the nodes that are updated and the (positive) tolerance: `update(repeat=None)` ends, or the bounds tend to zero. -/
theorem C91_state_space (data : Fin P.J → Fin (P.M + 1) → ℝ) (hP : SSValid P) (name : SS → String)
    (ns : List SS) (tol : Option (Option ℝ)) (s : VBState SS (ssNet P).State Unit Unit (Option ℝ))
    (hr : VBReachable (netEnv (ssNet P) name) s) (hall : ∀ n : SS, n ∈ s.model)
    (hauto : s.autosaveIterations = 0) (hcheck : s.ignoreBoundChecks = false)
    (t : ℝ) (ht : 0 < t) (htol : tol.getD s.tol = some t)
    (hs : SSState P data (netDecode (ssNet P) s.world))
    (hf : ∀ i j, P.mask i j = true → (netDecode (ssNet P) s.world).f SS.y (i, j) = ardF 1) :
    (∃ k s', updateLoop (netEnv (ssNet P) name) (ns.map .node) tol k s = (.ok true, s')) ∨
      ∃ st : ℕ → VBState SS (ssNet P).State Unit Unit (Option ℝ),
        (∀ k, updateLoop (netEnv (ssNet P) name) (ns.map .node) tol k s = (.ok false, st k)) ∧
        Tendsto (fun k => (ssNet P).bound (netDecode (ssNet P) (st k).world)) atTop (𝓝 0) :=
  C91_network (ssNet P) name (fun s => SSState P data s ∧ ∀ i j, P.mask i j = true → s.f SS.y (i, j) = ardF 1)
    (fun s n h => ss_step P data hP s n h) (ssBound P) (fun s h => ss_bound_le P data hP s h.1 h.2) ns tol s hr hall hauto hcheck
    t ht htol ⟨hs, hf⟩

/-- **C91, state-space model** If the prior of the noise makes the observations improbable, whatever they are (`ssBound P < 0`),
`update(repeat=None)` ends. -/
theorem C91_state_space_ends (data : Fin P.J → Fin (P.M + 1) → ℝ) (hP : SSValid P) (hB : ssBound P < 0) (name : SS → String)
    (ns : List SS) (tol : Option (Option ℝ)) (s : VBState SS (ssNet P).State Unit Unit (Option ℝ))
    (hr : VBReachable (netEnv (ssNet P) name) s) (hall : ∀ n : SS, n ∈ s.model)
    (hauto : s.autosaveIterations = 0) (hcheck : s.ignoreBoundChecks = false)
    (t : ℝ) (ht : 0 < t) (htol : tol.getD s.tol = some t)
    (hs : SSState P data (netDecode (ssNet P) s.world))
    (hf : ∀ i j, P.mask i j = true → (netDecode (ssNet P) s.world).f SS.y (i, j) = ardF 1) :
    ∃ k s', updateLoop (netEnv (ssNet P) name) (ns.map .node) tol k s = (.ok true, s') :=
  C91_network_ends (ssNet P) name (fun s => SSState P data s ∧ ∀ i j, P.mask i j = true → s.f SS.y (i, j) = ardF 1)
    (fun s n h => ss_step P data hP s n h) (ssBound P) hB (fun s h => ss_bound_le P data hP s h.1 h.2) ns tol s hr hall hauto hcheck
    t ht htol ⟨hs, hf⟩

end

/-- two time instances, two states, one input, three rows, of which the first is missing -/
noncomputable def exSS4 : SSParams where
  M := 1
  D := 2
  K := 1
  J := 3
  aA := fun _ => 1
  bA := fun _ => 1
  muA := fun _ _ => 0
  mu0 := fun _ => 0
  Lambda0 := 1
  z := fun _ _ => 1
  aC := fun _ => 1
  bC := fun _ => 1
  muC := fun _ _ => 0
  at' := 1
  bt := 1
  mask := fun i _ => !decide (i = 0)

theorem exSS4_valid : SSValid exSS4 :=
  ⟨fun _ => one_pos, fun _ => one_pos, PosDef.one, fun _ => one_pos, fun _ => one_pos, one_pos, one_pos⟩

theorem exSS4_bound : ssBound exSS4 < 0 := exFA4_bound

/-- `Q = VB(X, C, gamma, A, alpha, tau, Y); Q.update(X, C, A, tau, repeat=None)` ends -/
example : ∃ s, vbInit (netEnv (ssNet exSS4) fun _ => "") [SS.x, SS.c, SS.gamma, SS.a, SS.alpha, SS.tau, SS.y] (some 1e-5) 0
      (fun _ => ⟨{ ssInit exSS4 (fun i j => i + j) (fun _ _ => 1) (fun _ _ => 0) (fun _ _ => 1) with f := fun _ _ => ardF 1 },
        (), (), some 1⟩)
      none = .ok s ∧
    ∃ k s', updateLoop (netEnv (ssNet exSS4) fun _ => "") ([SS.x, SS.c, SS.a, SS.tau].map .node) none k s = (.ok true, s') := by
  refine ⟨_, vbInit_eq _ _ _ _ _ _, C91_state_space_ends exSS4 (fun i j => i + j) exSS4_valid exSS4_bound
    (fun _ => "") [SS.x, SS.c, SS.a, SS.tau] none _ ⟨_, _, _, _, _, _, [], vbInit_eq _ _ _ _ _ _, rfl⟩ (fun n => ?_) rfl rfl 1e-5
    (by norm_num) rfl (ssInit_state exSS4 (fun i j => i + j) (fun _ _ => 1) (fun _ _ => 0) fun _ _ => 1) fun _ _ _ => rfl⟩
  cases n <;> decide

end Verif
