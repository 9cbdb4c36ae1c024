import Verif.Props.GaussianChain
import Verif.Props.Convert

/-!
# C21, C22, C23 for the Gaussian Markov chain: the chain is one large Gaussian
-/

namespace Verif
open Spec Matrix

/-! ### C21 -/

theorem log_gaussianARDPdf {ι : Type*} [Fintype ι] (mu alpha x : ι → ℝ) (ha : ∀ i, 0 < alpha i) :
    Real.log (gaussianARDPdf mu alpha x)
      = ∑ i, (0.5 * Real.log (alpha i) - 0.5 * Real.log (2 * Real.pi) - 0.5 * (alpha i * (x i - mu i) ^ 2)) := by
  have hpi : (0 : ℝ) < 2 * Real.pi := by positivity
  have hq : ∀ i, 0 < Real.sqrt (alpha i / (2 * Real.pi)) := fun i => Real.sqrt_pos.2 (div_pos (ha i) hpi)
  rw [gaussianARDPdf, Real.log_prod fun i _ => (mul_pos (hq i) (Real.exp_pos _)).ne']
  refine Finset.sum_congr rfl fun i _ => ?_
  rw [Real.log_mul (hq i).ne' (Real.exp_pos _).ne', Real.log_exp, Real.log_sqrt (div_pos (ha i) hpi).le,
    Real.log_div (ha i).ne' hpi.ne']
  ring

section
variable {M D : Nat} {κ : Type} [Fintype κ]

/-- The density of a chain: the first state is Gaussian, and every next state is a linear function of the state and the
inputs plus independent noise. -/
noncomputable def Spec.gaussianChainPdf (mu : Fin D → ℝ) (L : Matrix (Fin D) (Fin D) ℝ) (A : Fin M → Matrix (Fin D) (Fin D) ℝ)
    (B : Fin M → Matrix (Fin D) κ ℝ) (nu : Fin M → Fin D → ℝ) (z : Fin M → κ → ℝ) (x : Fin (M + 1) → Fin D → ℝ) : ℝ :=
  gaussianPdf mu L (x 0) * ∏ m : Fin M, gaussianARDPdf (A m *ᵥ x m.castSucc + B m *ᵥ z m) (nu m) (x m.succ)

theorem gmc_transition (W : Fin D → Fin D ⊕ κ → ℝ) (nu : Fin D → ℝ) (z : κ → ℝ) (x x' : Fin D → ℝ) :
    (∑ i, (∑ k, nu i * W i (.inr k) * z k) * x' i)
        - (∑ i, (∑ k, (∑ d, nu d * (W d (.inl i) * W d (.inr k))) * z k) * x i)
        - 0.5 * (∑ i, nu i * (x' i * x' i))
        - 0.5 * (∑ i, ∑ j, (∑ d, nu d * (W d (.inl i) * W d (.inl j))) * (x i * x j))
        + (∑ i, ∑ j, nu j * W j (.inl i) * (x i * x' j))
        + 0.5 * (∑ d, Real.log (nu d))
        - 0.5 * ∑ k, ∑ l, z k * z l * ∑ d, nu d * (W d (.inr k) * W d (.inr l))
      = ∑ d, (0.5 * Real.log (nu d)
          - 0.5 * (nu d * (x' d - ((∑ i, W d (.inl i) * x i) + ∑ k, W d (.inr k) * z k)) ^ 2)) := by
  have h1 : ∑ i, (∑ k, nu i * W i (.inr k) * z k) * x' i = ∑ d, nu d * (∑ k, W d (.inr k) * z k) * x' d := by
    refine Finset.sum_congr rfl fun i _ => ?_
    rw [Finset.mul_sum]
    simp only [mul_assoc]
  have h2 : ∑ i, (∑ k, (∑ d, nu d * (W d (.inl i) * W d (.inr k))) * z k) * x i
      = ∑ d, nu d * (∑ i, W d (.inl i) * x i) * ∑ k, W d (.inr k) * z k := by
    simp only [Finset.sum_mul, Finset.mul_sum]
    rw [Finset.sum_congr rfl fun i _ => Finset.sum_comm, Finset.sum_comm]
    refine Finset.sum_congr rfl fun d _ => ?_
    rw [Finset.sum_comm]
    exact Finset.sum_congr rfl fun k _ => Finset.sum_congr rfl fun i _ => by ring
  have h4 : ∑ i, ∑ j, (∑ d, nu d * (W d (.inl i) * W d (.inl j))) * (x i * x j)
      = ∑ d, nu d * (∑ i, W d (.inl i) * x i) * ∑ i, W d (.inl i) * x i := by
    simp only [Finset.sum_mul, Finset.mul_sum]
    rw [Finset.sum_congr rfl fun i _ => Finset.sum_comm, Finset.sum_comm]
    refine Finset.sum_congr rfl fun d _ => ?_
    rw [Finset.sum_comm]
    exact Finset.sum_congr rfl fun k _ => Finset.sum_congr rfl fun i _ => by ring
  have h5 : ∑ i, ∑ j, nu j * W j (.inl i) * (x i * x' j) = ∑ d, nu d * (∑ i, W d (.inl i) * x i) * x' d := by
    rw [Finset.sum_comm]
    refine Finset.sum_congr rfl fun d _ => ?_
    rw [Finset.mul_sum, Finset.sum_mul]
    exact Finset.sum_congr rfl fun i _ => by ring
  have h7 : ∑ k, ∑ l, z k * z l * ∑ d, nu d * (W d (.inr k) * W d (.inr l))
      = ∑ d, nu d * (∑ k, W d (.inr k) * z k) * ∑ k, W d (.inr k) * z k := by
    simp only [Finset.sum_mul, Finset.mul_sum]
    rw [Finset.sum_congr rfl fun i _ => Finset.sum_comm, Finset.sum_comm]
    refine Finset.sum_congr rfl fun d _ => ?_
    rw [Finset.sum_comm]
    exact Finset.sum_congr rfl fun k _ => Finset.sum_congr rfl fun i _ => by ring
  rw [h1, h2, h4, h5, h7]
  have key : ∀ P Q : Fin D → ℝ, (∑ d, nu d * Q d * x' d) - (∑ d, nu d * P d * Q d) - 0.5 * (∑ d, nu d * (x' d * x' d))
      - 0.5 * (∑ d, nu d * P d * P d) + (∑ d, nu d * P d * x' d) + 0.5 * (∑ d, Real.log (nu d))
      - 0.5 * (∑ d, nu d * Q d * Q d)
      = ∑ d, (0.5 * Real.log (nu d) - 0.5 * (nu d * (x' d - (P d + Q d)) ^ 2)) := by
    intro P Q
    simp only [Finset.mul_sum, ← Finset.sum_add_distrib, ← Finset.sum_sub_distrib]
    exact Finset.sum_congr rfl fun d _ => by ring
  exact key (fun d => ∑ i, W d (.inl i) * x i) fun d => ∑ k, W d (.inr k) * z k

/-- **C21** With fixed parents, the log-density of a chain is that of its definition. -/
theorem C21_gaussian_chain (mu : Fin D → ℝ) (L : Matrix (Fin D) (Fin D) ℝ) (hL : L.PosDef)
    (W : Fin M → Fin D → Fin D ⊕ κ → ℝ) (nu : Fin M → Fin D → ℝ) (hnu : ∀ m d, 0 < nu m d) (z : Fin M → κ → ℝ)
    (x : Fin (M + 1) → Fin D → ℝ) :
    let v := wrapGW (toGaussianGamma (gaussianFixed mu)) (wishartFixed L)
    logpdf (gmcFixed x) (gmcPhi v (dynFixed W nu) (inpFixed z)) (gmcCgfP v (dynFixed W nu) (inpFixed z)) (gmcF M D)
      = Real.log (gaussianChainPdf mu L (fun m => of fun d i => W m d (.inl i)) (fun m => of fun d k => W m d (.inr k)) nu z x) := by
  intro v
  have hp : ∀ m, 0 < gaussianARDPdf (of (fun d i => W m d (.inl i)) *ᵥ x m.castSucc + of (fun d k => W m d (.inr k)) *ᵥ z m)
      (nu m) (x m.succ) := fun m => Finset.prod_pos fun d _ => mul_pos
        (Real.sqrt_pos.2 (div_pos (hnu m d) (by positivity))) (Real.exp_pos _)
  have hg : 0 < gaussianPdf mu L (x 0) := by
    have := hL.det_pos
    unfold gaussianPdf
    positivity
  rw [gmc_logpdf, gaussianChainPdf, Real.log_mul hg.ne' (Finset.prod_pos fun m _ => hp m).ne',
    Real.log_prod fun m _ => (hp m).ne', ← C21_gaussian mu L hL (x 0), logpdf_eq]
  have ht := Finset.sum_congr rfl fun (m : Fin M) (_ : m ∈ Finset.univ) =>
    gmc_transition (W m) (nu m) (z m) (x m.castSucc) (x m.succ)
  refine (congrArg (fun t => _ + t + _) ht).trans ?_
  simp only [log_gaussianARDPdf _ _ _ (hnu _)]
  have e1 : gaussianPhi v ⬝ᵥ gaussianFixed (x 0)
      = (∑ i, gw0 v i * x 0 i) - 0.5 * ∑ i, ∑ j, gw2 v i j * (x 0 i * x 0 j) := by
    rw [gaussianPhi, mkG_dot]
    simp only [dotProduct, Matrix.mulVec, Matrix.smul_apply, smul_eq_mul, Finset.mul_sum, sub_eq_add_neg,
      ← Finset.sum_neg_distrib]
    congr 1
    exact Finset.sum_congr rfl fun i _ => Finset.sum_congr rfl fun j _ => by ring
  have e2 : gaussianCgfP v = -0.5 * gw1 v + 0.5 * gw3 v := rfl
  have e3 : ∀ m : Fin M, ∑ d, (0.5 * Real.log (nu m d) - 0.5 * Real.log (2 * Real.pi)
        - 0.5 * (nu m d * (x m.succ d - (of (fun d i => W m d (.inl i)) *ᵥ x m.castSucc
          + of (fun d k => W m d (.inr k)) *ᵥ z m) d) ^ 2))
      = ∑ d, (0.5 * Real.log (nu m d) - 0.5 * (nu m d * (x m.succ d - ((∑ i, W m d (.inl i) * x m.castSucc i)
          + ∑ k, W m d (.inr k) * z m k)) ^ 2)) - 0.5 * D * Real.log (2 * Real.pi) := by
    intro m
    rw [show 0.5 * (D : ℝ) * Real.log (2 * Real.pi) = ∑ _d : Fin D, 0.5 * Real.log (2 * Real.pi) by
      rw [Finset.sum_const, Finset.card_univ, Fintype.card_fin, nsmul_eq_mul]; ring, ← Finset.sum_sub_distrib]
    refine Finset.sum_congr rfl fun d _ => ?_
    simp only [Pi.add_apply, Matrix.mulVec, dotProduct, Matrix.of_apply]
    ring
  rw [Finset.sum_congr rfl fun m _ => e3 m, Finset.sum_sub_distrib, Finset.sum_const, Finset.card_univ, Fintype.card_fin,
    nsmul_eq_mul, e1, e2, gmcF, gaussianF, Fintype.card_fin]
  have e4 : ∀ i, c0 (gmcFixed x) 0 i = x 0 i := fun _ => rfl
  have e5 : ∀ i j, c1 (gmcFixed x) 0 i j = x 0 i * x 0 j := fun _ _ => rfl
  simp only [e4, e5]
  ring

end

/-! ### C22 -/

section
variable {M D : Nat}

/-- The parameters of the chain as parameters of one Gaussian with all states. -/
noncomputable def Spec.gmcFull (phi : GMCIx M D → ℝ) : GIx (Fin (M + 1) × Fin D) → ℝ :=
  mkG (fun p => c0 phi p.1 p.2) (of fun p q =>
    if p.1 = q.1 then c1 phi p.1 p.2 q.2
    else if h : p.1.val + 1 = q.1.val then 0.5 * c2 phi ⟨p.1, by omega⟩ p.2 q.2
    else if h : q.1.val + 1 = p.1.val then 0.5 * c2 phi ⟨q.1, by omega⟩ q.2 p.2
    else 0)

/-- The moments of the chain among those of all states. -/
def Spec.gmcRestrict (U : GIx (Fin (M + 1) × Fin D) → ℝ) : GMCIx M D → ℝ :=
  mkC (fun n i => g0 U (n, i)) (fun n => of fun i j => g1 U (n, i) (n, j))
    fun n => of fun i j => g1 U (n.castSucc, i) (n.succ, j)

theorem gmcFull_mat (phi : GMCIx M D → ℝ) :
    (-2 : ℝ) • g1 (gmcFull phi) = blockTridiagonal (M + 1) (gmcA phi) (gmcB phi) := by
  ext p q
  change -2 * (if p.1 = q.1 then c1 phi p.1 p.2 q.2
    else if h : p.1.val + 1 = q.1.val then 0.5 * c2 phi ⟨p.1, by omega⟩ p.2 q.2
    else if h : q.1.val + 1 = p.1.val then 0.5 * c2 phi ⟨q.1, by omega⟩ q.2 p.2
    else 0) = _
  unfold blockTridiagonal
  by_cases h1 : p.1 = q.1
  · rw [if_pos h1, if_pos h1]
    simp only [gmcA, p.1.2, dif_pos]
    rfl
  rw [if_neg h1, if_neg h1]
  by_cases h2 : p.1.val + 1 = q.1.val
  · have : p.1.val < M := by omega
    rw [dif_pos h2, if_pos h2]
    simp only [gmcB, this, dif_pos, Matrix.neg_apply]
    ring
  rw [dif_neg h2, if_neg h2]
  by_cases h3 : q.1.val + 1 = p.1.val
  · have : q.1.val < M := by omega
    rw [dif_pos h3, if_pos h3]
    simp only [gmcB, this, dif_pos, Matrix.neg_apply]
    ring
  rw [dif_neg h3, if_neg h3, mul_zero]

theorem gmcFull_vec (phi : GMCIx M D → ℝ) : g0 (gmcFull phi) = blockVector (M + 1) (gmcY phi) := by
  funext p
  simp only [blockVector, gmcY, p.1.2, dif_pos]
  rfl

theorem gmcA_symm (phi : GMCIx M D → ℝ) (h : ((-2 : ℝ) • g1 (gmcFull phi)).PosDef) : ∀ k ≤ M, (gmcA phi k).IsSymm := by
  intro k hk
  have hs := posDef_transpose h
  rw [gmcFull_mat] at hs
  ext i j
  have := congrFun (congrFun hs (⟨k, by omega⟩, i)) (⟨k, by omega⟩, j)
  simpa [blockTridiagonal] using this

theorem gmcRun_ok (phi : GMCIx M D → ℝ) (h : ((-2 : ℝ) • g1 (gmcFull phi)).PosDef) :
    ∃ s, gmcRun phi = .ok s ∧
      (∀ n : Fin (M + 1), ∀ i, s.x n i = (((-2 : ℝ) • g1 (gmcFull phi))⁻¹ *ᵥ g0 (gmcFull phi)) (n, i)) ∧
      (∀ n : Fin (M + 1), ∀ i j, s.V n i j = ((-2 : ℝ) • g1 (gmcFull phi))⁻¹ (n, i) (n, j)) ∧
      (∀ n : Fin M, ∀ i j, s.C n i j = ((-2 : ℝ) • g1 (gmcFull phi))⁻¹ (n.castSucc, i) (n.succ, j)) ∧
      s.ldet = Real.log ((-2 : ℝ) • g1 (gmcFull phi)).det := by
  have hA := gmcA_symm phi h
  have hd := h.det_pos
  rw [gmcFull_mat] at h hd ⊢
  rw [gmcFull_vec]
  obtain ⟨s, hs⟩ := (C54_succeeds_iff_posDef M (gmcA phi) (gmcB phi) (gmcY phi) hA).1.2 h
  obtain ⟨hV, hC, -, hl⟩ := C30_inverse_blocks_and_logdet M _ _ _ hA s hs
  have hx := C29_solves_partial (M + 1) (M + 1) M _ _ _ (fun k hk => hA k (by omega)) s hs
  refine ⟨s, hs, fun n i => ?_, fun n i j => ?_, fun n i j => ?_, hl⟩
  · rw [← hx, mulVec_mulVec, nonsing_inv_mul _ hd.ne'.isUnit, one_mulVec]
    rfl
  · rw [hV]
    rfl
  · rw [hC]
    rfl

/-- **C22** The moments which `compute_moments_and_cgf` returns are those of the Gaussian with all states, and the same
normaliser, whenever there is one. -/
theorem C22_gaussian_chain (phi : GMCIx M D → ℝ) (h : ((-2 : ℝ) • g1 (gmcFull phi)).PosDef) :
    gmcMoments phi = gmcRestrict (gaussianMoments (gmcFull phi)) ∧ gmcCgf phi = gaussianCgf (gmcFull phi) := by
  obtain ⟨s, hs, hx, hV, hC, hl⟩ := gmcRun_ok phi h
  constructor
  · unfold gmcMoments
    rw [hs]
    funext k
    rcases k with ⟨n, i⟩ | ⟨n, i, j⟩ | ⟨n, i, j⟩
    · exact hx n i
    · change s.V n i j + s.x n i * s.x n j = _
      rw [hV, hx, hx]
      rfl
    · change s.C n i j + s.x n i * s.x (n + 1) j = _
      have e1 := hx n.castSucc i
      have e2 := hx n.succ j
      rw [Fin.val_castSucc] at e1
      rw [Fin.val_succ] at e2
      rw [hC, e1, e2]
      rfl
  · unfold gmcCgf
    rw [hs]
    change -0.5 * _ + 0.5 * _ = -0.5 * _ + 0.5 * _
    rw [hl]
    congr 2
    rw [dotProduct, Fintype.sum_prod_type]
    refine Finset.sum_congr rfl fun n _ => Finset.sum_congr rfl fun i _ => ?_
    rw [hx]
    rfl

theorem sum_super {N : Nat} (F : Fin (N + 1) → Fin (N + 1) → ℝ) :
    ∑ n, ∑ m, (if n.val + 1 = m.val then F n m else 0) = ∑ k : Fin N, F k.castSucc k.succ := by
  rw [Fin.sum_univ_castSucc]
  have hl : ∑ m : Fin (N + 1), (if (Fin.last N).val + 1 = m.val then F (Fin.last N) m else 0) = 0 :=
    Finset.sum_eq_zero fun m _ => if_neg (by simp only [Fin.val_last]; omega)
  rw [hl, add_zero]
  refine Finset.sum_congr rfl fun k _ => ?_
  rw [Finset.sum_eq_single k.succ]
  · simp
  · intro b _ hb
    refine if_neg fun h => hb (Fin.ext ?_)
    rw [Fin.val_succ, ← h, Fin.val_castSucc]
  · simp

theorem frob_full (U : Matrix (Fin (M + 1) × Fin D) (Fin (M + 1) × Fin D) ℝ) (hU : Uᵀ = U) (phi : GMCIx M D → ℝ) :
    frob U (g1 (gmcFull phi)) = (∑ n, ∑ i, ∑ j, U (n, i) (n, j) * c1 phi n i j)
      + ∑ n : Fin M, ∑ i, ∑ j, U (n.castSucc, i) (n.succ, j) * c2 phi n i j := by
  set F : Fin (M + 1) → Fin (M + 1) → ℝ := fun n m =>
    if h : n.val < M then ∑ i, ∑ j, U (n, i) (m, j) * (0.5 * c2 phi ⟨n, h⟩ i j) else 0 with hF
  have hb : ∀ n m : Fin (M + 1), ∑ i, ∑ j, U (n, i) (m, j) * g1 (gmcFull phi) (n, i) (m, j)
      = (if n = m then ∑ i, ∑ j, U (n, i) (n, j) * c1 phi n i j else 0) + (if n.val + 1 = m.val then F n m else 0)
        + (if m.val + 1 = n.val then F m n else 0) := by
    intro n m
    have hd : ∀ i j, g1 (gmcFull phi) (n, i) (m, j) = if n = m then c1 phi n i j
      else if h : n.val + 1 = m.val then 0.5 * c2 phi ⟨n, by omega⟩ i j
      else if h : m.val + 1 = n.val then 0.5 * c2 phi ⟨m, by omega⟩ j i
      else 0 := fun _ _ => rfl
    by_cases h1 : n = m
    · subst h1
      simp [hd]
    · by_cases h2 : n.val + 1 = m.val
      · have h3 : ¬ m.val + 1 = n.val := by omega
        have hn : n.val < M := by omega
        simp only [hd, if_neg h1, dif_pos h2, if_pos h2, if_neg h3, zero_add, add_zero, hF, dif_pos hn]
      · by_cases h3 : m.val + 1 = n.val
        · have hn : m.val < M := by omega
          simp only [hd, if_neg h1, dif_neg h2, dif_pos h3, if_neg h2, if_pos h3, zero_add, hF, dif_pos hn]
          rw [Finset.sum_comm]
          refine Finset.sum_congr rfl fun i _ => Finset.sum_congr rfl fun j _ => ?_
          rw [show U (n, j) (m, i) = U (m, i) (n, j) from congrFun (congrFun hU (m, i)) (n, j)]
        · simp [hd, h1, h2, h3]
  have he : frob U (g1 (gmcFull phi)) = ∑ n, ∑ m, ∑ i, ∑ j, U (n, i) (m, j) * g1 (gmcFull phi) (n, i) (m, j) := by
    unfold frob
    rw [Fintype.sum_prod_type]
    refine Finset.sum_congr rfl fun n _ => ?_
    rw [Finset.sum_congr rfl fun i _ => Fintype.sum_prod_type _, Finset.sum_comm]
  rw [he, Finset.sum_congr rfl fun n _ => Finset.sum_congr rfl fun m _ => hb n m]
  simp only [Finset.sum_add_distrib]
  have h2 := sum_super F
  have h3 : ∑ n, ∑ m, (if m.val + 1 = n.val then F m n else 0) = ∑ k : Fin M, F k.castSucc k.succ := by
    rw [Finset.sum_comm]
    exact sum_super F
  rw [h2, h3, add_assoc, ← Finset.sum_add_distrib]
  congr 1
  · simp
  · refine Finset.sum_congr rfl fun k _ => ?_
    have hk : k.castSucc.val < M := k.2
    simp only [hF, dif_pos hk, ← Finset.sum_add_distrib]
    refine Finset.sum_congr rfl fun i _ => Finset.sum_congr rfl fun j _ => ?_
    change U (k.castSucc, i) (k.succ, j) * (0.5 * c2 phi k i j) + U (k.castSucc, i) (k.succ, j) * (0.5 * c2 phi k i j) = _
    ring

theorem gmc_pairing (U : GIx (Fin (M + 1) × Fin D) → ℝ) (hU : (g1 U)ᵀ = g1 U) (phi : GMCIx M D → ℝ) :
    gmcRestrict U ⬝ᵥ phi = U ⬝ᵥ gmcFull phi := by
  rw [c_dot, g_dot]
  have h := frob_full (g1 U) hU phi
  unfold frob at h
  rw [h, Fintype.sum_prod_type, ← add_assoc]
  rfl

theorem gmcFull_sub (phi phi' : GMCIx M D → ℝ) : gmcFull (phi' - phi) = gmcFull phi' - gmcFull phi := by
  funext k
  rcases k with p | ⟨p, q⟩
  · rfl
  · change (if p.1 = q.1 then c1 (phi' - phi) p.1 p.2 q.2
      else if h : p.1.val + 1 = q.1.val then 0.5 * c2 (phi' - phi) ⟨p.1, by omega⟩ p.2 q.2
      else if h : q.1.val + 1 = p.1.val then 0.5 * c2 (phi' - phi) ⟨q.1, by omega⟩ q.2 p.2
      else 0) = (if p.1 = q.1 then c1 phi' p.1 p.2 q.2
      else if h : p.1.val + 1 = q.1.val then 0.5 * c2 phi' ⟨p.1, by omega⟩ p.2 q.2
      else if h : q.1.val + 1 = p.1.val then 0.5 * c2 phi' ⟨q.1, by omega⟩ q.2 p.2
      else 0) - (if p.1 = q.1 then c1 phi p.1 p.2 q.2
      else if h : p.1.val + 1 = q.1.val then 0.5 * c2 phi ⟨p.1, by omega⟩ p.2 q.2
      else if h : q.1.val + 1 = p.1.val then 0.5 * c2 phi ⟨q.1, by omega⟩ q.2 p.2
      else 0)
    split_ifs
    · rfl
    · exact mul_sub _ _ _
    · exact mul_sub _ _ _
    · exact (sub_zero _).symm

theorem gaussianMoments_symm {ι : Type*} [Fintype ι] [DecidableEq ι] (phi : GIx ι → ℝ)
    (h : ((-2 : ℝ) • g1 phi).PosDef) : (g1 (gaussianMoments phi))ᵀ = g1 (gaussianMoments phi) := by
  have e : g1 (gaussianMoments phi) = ((-2 : ℝ) • g1 phi)⁻¹
      + vecMulVec (((-2 : ℝ) • g1 phi)⁻¹ *ᵥ g0 phi) (((-2 : ℝ) • g1 phi)⁻¹ *ᵥ g0 phi) := rfl
  rw [e, transpose_add, transpose_vecMulVec, transpose_nonsing_inv, posDef_transpose h]

theorem tangent_gaussian_chain (phi phi' : GMCIx M D → ℝ) (h : ((-2 : ℝ) • g1 (gmcFull phi)).PosDef)
    (h' : ((-2 : ℝ) • g1 (gmcFull phi')).PosDef) : Tangent gmcCgf gmcMoments phi phi' := by
  have ht := tangent_gaussian _ _ h h'
  unfold Tangent at ht ⊢
  rw [(C22_gaussian_chain phi h).1, (C22_gaussian_chain phi h).2, (C22_gaussian_chain phi' h').2,
    gmc_pairing _ (gaussianMoments_symm _ h), gmcFull_sub]
  exact ht

/-- The density of the chain with parameters `phi` is that of the Gaussian with all states. -/
theorem gmcFixed_pairing (phi : GMCIx M D → ℝ) (x : Fin (M + 1) → Fin D → ℝ) :
    gmcFixed x ⬝ᵥ phi = gaussianFixed (fun p : Fin (M + 1) × Fin D => x p.1 p.2) ⬝ᵥ gmcFull phi := by
  refine Eq.trans ?_ (gmc_pairing _ ?_ phi)
  · rfl
  · ext p q
    exact mul_comm _ _

end

/-! ### C23 -/

section
variable (M D : Nat) (κ : Type) [Fintype κ]

omit [Fintype κ] in
theorem dynSym_eq (a : DynIx M D κ → ℝ) (h : DynSymm a) : dynSym a = a := by
  funext k
  rcases k with p | ⟨m, d, j, k⟩ | p
  · rfl
  · rcases j with i | k' <;> rcases k with j | l
    · rfl
    · change 0.5 * (d1 a m d _ _ + d1 a m d _ _) = d1 a m d _ _
      rw [h m d i l]
      ring
    · change 0.5 * (d1 a m d _ _ + d1 a m d _ _) = d1 a m d _ _
      rw [h m d j k']
      ring
    · rfl
  · rfl

variable {M D : Nat} {κ : Type} [Fintype κ]

omit [Fintype κ] in
theorem dynSym_symm (a : DynIx M D κ → ℝ) : DynSymm (dynSym a) := by
  intro m d i k
  change 0.5 * (d1 a m d _ _ + d1 a m d _ _) = 0.5 * (d1 a m d _ _ + d1 a m d _ _)
  rw [add_comm]

theorem msg1_dynSym (u : GMCIx M D → ℝ) (z : InpIx M κ → ℝ) (a : DynIx M D κ → ℝ) :
    gmcMsg1 u z ⬝ᵥ dynSym a = gmcMsg1 u z ⬝ᵥ a := by
  rw [dyn_dot, dyn_dot]
  have e0 : ∀ n d j, d0 (dynSym a) n d j = d0 a n d j := fun _ _ _ => rfl
  have e2 : ∀ n d, d2 (dynSym a) n d = d2 a n d := fun _ _ => rfl
  have e3 : ∀ n d, d3 (dynSym a) n d = d3 a n d := fun _ _ => rfl
  have e1 : ∀ m d, ∑ j, ∑ k, d1 (gmcMsg1 u z) m d j k * d1 (dynSym a) m d j k
      = ∑ j, ∑ k, d1 (gmcMsg1 u z) m d j k * d1 a m d j k := by
    intro m d
    simp only [Fintype.sum_sum_type, Finset.sum_add_distrib]
    have hc : ∀ b : DynIx M D κ → ℝ,
        ∑ k : κ, ∑ i : Fin D, d1 (gmcMsg1 u z) m d (.inr k) (.inl i) * d1 b m d (.inr k) (.inl i)
          = ∑ i : Fin D, ∑ k : κ, d1 (gmcMsg1 u z) m d (.inl i) (.inr k) * d1 b m d (.inr k) (.inl i) := by
      intro b
      rw [Finset.sum_comm]
      rfl
    rw [hc, hc]
    have hs : ∀ b : DynIx M D κ → ℝ,
        (∑ i : Fin D, ∑ k : κ, d1 (gmcMsg1 u z) m d (.inl i) (.inr k) * d1 b m d (.inl i) (.inr k))
          + ∑ i : Fin D, ∑ k : κ, d1 (gmcMsg1 u z) m d (.inl i) (.inr k) * d1 b m d (.inr k) (.inl i)
          = ∑ i : Fin D, ∑ k : κ, d1 (gmcMsg1 u z) m d (.inl i) (.inr k)
              * (d1 b m d (.inl i) (.inr k) + d1 b m d (.inr k) (.inl i)) := by
      intro b
      simp only [mul_add, Finset.sum_add_distrib]
    have hx : ∀ b : DynIx M D κ → ℝ, ∀ p q : ℝ,
        p + (∑ i : Fin D, ∑ k : κ, d1 (gmcMsg1 u z) m d (.inl i) (.inr k) * d1 b m d (.inr k) (.inl i))
          + ((∑ i : Fin D, ∑ k : κ, d1 (gmcMsg1 u z) m d (.inl i) (.inr k) * d1 b m d (.inl i) (.inr k)) + q)
          = p + q + ∑ i : Fin D, ∑ k : κ, d1 (gmcMsg1 u z) m d (.inl i) (.inr k)
              * (d1 b m d (.inl i) (.inr k) + d1 b m d (.inr k) (.inl i)) := by
      intro b p q
      rw [← hs b]
      ring
    rw [hx, hx]
    refine congrArg₂ _ rfl (Finset.sum_congr rfl fun i _ => Finset.sum_congr rfl fun k _ => ?_)
    change _ * (0.5 * (d1 a m d _ _ + d1 a m d _ _) + 0.5 * (d1 a m d _ _ + d1 a m d _ _)) = _
    ring
  simp only [e0, e1, e2, e3]

theorem C23_gaussian_chain_sound : FamilySound (gmcFamily M D κ)
    {phi : GMCIx M D → ℝ | ((-2 : ℝ) • g1 (gmcFull phi)).PosDef} where
  conj := by
    intro k u pa f
    change Fin 3 at k
    match k with
    | 0 => exact C20_gaussian_chain_initial u (dynSym (pa (1 : Fin 3) : DynIx M D κ → ℝ)) (pa (2 : Fin 3)) f
    | 1 =>
      obtain ⟨r, hr⟩ := C20_gaussian_chain_dynamics u (pa (0 : Fin 3) : GWIx (Fin D) → ℝ) (pa (2 : Fin 3) : InpIx M κ → ℝ) f
      exact ⟨r, fun a => (hr (dynSym a) (dynSym_symm a)).trans (congrArg (· + r) (msg1_dynSym u (pa (2 : Fin 3)) a))⟩
    | 2 => exact C20_gaussian_chain_inputs u (pa (0 : Fin 3)) (dynSym (pa (1 : Fin 3) : DynIx M D κ → ℝ)) f
  tangent := fun phi h phi' h' => tangent_gaussian_chain (M := M) (D := D) phi phi' h h'

end

/-- The parameters of a chain of three states in two dimensions, without coupling. -/
example : (mkC (fun _ _ => 1) (fun _ => (-0.5 : ℝ) • (1 : Matrix (Fin 2) (Fin 2) ℝ)) fun _ => 0 : GMCIx 2 2 → ℝ)
    ∈ {phi : GMCIx 2 2 → ℝ | ((-2 : ℝ) • g1 (gmcFull phi)).PosDef} := by
  have : (-2 : ℝ) • g1 (gmcFull (mkC (fun _ _ => 1) (fun _ => (-0.5 : ℝ) • (1 : Matrix (Fin 2) (Fin 2) ℝ)) fun _ => 0 :
      GMCIx 2 2 → ℝ)) = 1 := by
    ext ⟨p1, p2⟩ ⟨q1, q2⟩
    change -2 * (if p1 = q1 then -0.5 * (1 : Matrix (Fin 2) (Fin 2) ℝ) p2 q2
      else if h : p1.val + 1 = q1.val then 0.5 * 0 else if h : q1.val + 1 = p1.val then 0.5 * 0 else 0) = _
    by_cases h1 : p1 = q1
    · by_cases h2 : p2 = q2
      · subst h1 h2
        rw [if_pos rfl, Matrix.one_apply_eq, Matrix.one_apply_eq]
        norm_num
      · simp [h1, h2, Matrix.one_apply]
    · simp [h1, Matrix.one_apply]
  change PosDef _
  rw [this]
  exact PosDef.one

end Verif
