import Verif.Props.RotateAxes

/-!
# C46: rotations of Gaussian Markov chains
-/

namespace Verif
open Matrix Spec
open scoped Kronecker

section
variable {M D : Nat}

/-- the block of two times -/
def blk {N : Nat} (X : Matrix (Fin N × Fin D) (Fin N × Fin D) ℝ) (m n : Fin N) : Matrix (Fin D) (Fin D) ℝ :=
  of fun i j => X (m, i) (n, j)

theorem kron_one_mulVec {N : Nat} (R : Matrix (Fin D) (Fin D) ℝ) (x : Fin N × Fin D → ℝ) (n : Fin N) (i : Fin D) :
    (((1 : Matrix (Fin N) (Fin N) ℝ) ⊗ₖ R) *ᵥ x) (n, i) = (R *ᵥ fun j => x (n, j)) i := by
  rw [mulVec, dotProduct, sum_kron]
  simp only [one_apply, ite_mul, one_mul, zero_mul, Finset.sum_ite_eq, Finset.mem_univ, if_true]
  rfl

theorem blk_conj {N : Nat} (S : Matrix (Fin D) (Fin D) ℝ) (X : Matrix (Fin N × Fin D) (Fin N × Fin D) ℝ) (m n : Fin N) :
    blk (((1 : Matrix (Fin N) (Fin N) ℝ) ⊗ₖ S) * X * ((1 : Matrix (Fin N) (Fin N) ℝ) ⊗ₖ S)ᵀ) m n = S * blk X m n * Sᵀ := by
  ext i j
  have h1 : ∀ q, (((1 : Matrix (Fin N) (Fin N) ℝ) ⊗ₖ S) * X) (m, i) q = ∑ k, S i k * X (m, k) q := fun q =>
    kron_one_mulVec S (fun p => X p q) m i
  have h2 : (((1 : Matrix (Fin N) (Fin N) ℝ) ⊗ₖ S) * X * ((1 : Matrix (Fin N) (Fin N) ℝ) ⊗ₖ S)ᵀ) (m, i) (n, j)
      = (((1 : Matrix (Fin N) (Fin N) ℝ) ⊗ₖ S) *ᵥ fun q => (((1 : Matrix (Fin N) (Fin N) ℝ) ⊗ₖ S) * X) (m, i) q) (n, j) := by
    rw [Matrix.mul_apply, mulVec, dotProduct]
    exact Finset.sum_congr rfl fun z _ => mul_comm _ _
  change (((1 : Matrix (Fin N) (Fin N) ℝ) ⊗ₖ S) * X * ((1 : Matrix (Fin N) (Fin N) ℝ) ⊗ₖ S)ᵀ) (m, i) (n, j) = _
  rw [h2, kron_one_mulVec]
  simp only [h1]
  rw [mulVec, dotProduct, Matrix.mul_apply]
  exact Finset.sum_congr rfl fun l _ => mul_comm _ _

theorem blk_full (phi : GMCIx M D → ℝ) (m n : Fin (M + 1)) : blk (g1 (gmcFull phi)) m n
    = if m = n then c1 phi m
      else if h : m.val + 1 = n.val then (0.5 : ℝ) • c2 phi ⟨m, by omega⟩
      else if h : n.val + 1 = m.val then (0.5 : ℝ) • (c2 phi ⟨n, by omega⟩)ᵀ
      else 0 := by
  ext i j
  change (if m = n then c1 phi m i j
    else if h : m.val + 1 = n.val then 0.5 * c2 phi ⟨m, by omega⟩ i j
    else if h : n.val + 1 = m.val then 0.5 * c2 phi ⟨n, by omega⟩ j i
    else 0) = _
  split
  · rfl
  split
  · rfl
  split
  · rfl
  · rfl

theorem kron_inv_transpose (R : Matrix (Fin D) (Fin D) ℝ) :
    ((1 : Matrix (Fin (M + 1)) (Fin (M + 1)) ℝ) ⊗ₖ R)⁻¹ᵀ = 1 ⊗ₖ R⁻¹ᵀ := by
  rw [inv_kronecker, kron_transpose, inv_one, transpose_one]

theorem c0_mkC (a : Fin (M + 1) → Fin D → ℝ) (A : Fin (M + 1) → Matrix (Fin D) (Fin D) ℝ)
    (B : Fin M → Matrix (Fin D) (Fin D) ℝ) : c0 (mkC a A B) = a := rfl
theorem c1_mkC (a : Fin (M + 1) → Fin D → ℝ) (A : Fin (M + 1) → Matrix (Fin D) (Fin D) ℝ)
    (B : Fin M → Matrix (Fin D) (Fin D) ℝ) : c1 (mkC a A B) = A := rfl
theorem c2_mkC (a : Fin (M + 1) → Fin D → ℝ) (A : Fin (M + 1) → Matrix (Fin D) (Fin D) ℝ)
    (B : Fin M → Matrix (Fin D) (Fin D) ℝ) : c2 (mkC a A B) = B := rfl

theorem gmcFull_conj (S : Matrix (Fin D) (Fin D) ℝ) (phi : GMCIx M D → ℝ) :
    gmcFull (mkC (fun n => S *ᵥ c0 phi n) (fun n => S * c1 phi n * Sᵀ) fun n => S * c2 phi n * Sᵀ)
      = mkG (((1 : Matrix (Fin (M + 1)) (Fin (M + 1)) ℝ) ⊗ₖ S) *ᵥ g0 (gmcFull phi))
          (((1 : Matrix (Fin (M + 1)) (Fin (M + 1)) ℝ) ⊗ₖ S) * g1 (gmcFull phi) * ((1 : Matrix (Fin (M + 1)) (Fin (M + 1)) ℝ) ⊗ₖ S)ᵀ) := by
  rw [← mkG_eta (gmcFull (mkC _ _ _))]
  congr 1
  · funext p
    obtain ⟨n, i⟩ := p
    rw [kron_one_mulVec]
    rfl
  · have key : ∀ m n, blk (g1 (gmcFull (mkC (fun n => S *ᵥ c0 phi n) (fun n => S * c1 phi n * Sᵀ)
        fun n => S * c2 phi n * Sᵀ))) m n
        = blk (((1 : Matrix (Fin (M + 1)) (Fin (M + 1)) ℝ) ⊗ₖ S) * g1 (gmcFull phi) * ((1 : Matrix (Fin (M + 1)) (Fin (M + 1)) ℝ) ⊗ₖ S)ᵀ) m n := by
      intro m n
      rw [blk_conj, blk_full, blk_full, c1_mkC, c2_mkC]
      split
      · rfl
      split
      · rw [Matrix.mul_smul, Matrix.smul_mul]
      split
      · rw [Matrix.mul_smul, Matrix.smul_mul, transpose_mul, transpose_mul, transpose_transpose, Matrix.mul_assoc]
      · rw [Matrix.mul_zero, Matrix.zero_mul]
    ext p q
    exact congrFun (congrFun (key p.1 q.1) p.2) q.2

/-- Rotating the parameters of a chain rotates those of the Gaussian with all states. -/
theorem gmcFull_rotate (R : Matrix (Fin D) (Fin D) ℝ) (phi : GMCIx M D → ℝ) :
    gmcFull (mkC (fun n => R⁻¹ᵀ *ᵥ c0 phi n) (fun n => R⁻¹ᵀ * c1 phi n * R⁻¹) fun n => R⁻¹ᵀ * c2 phi n * R⁻¹)
      = mkG (((1 : Matrix (Fin (M + 1)) (Fin (M + 1)) ℝ) ⊗ₖ R)⁻¹ᵀ *ᵥ g0 (gmcFull phi))
          (((1 : Matrix (Fin (M + 1)) (Fin (M + 1)) ℝ) ⊗ₖ R)⁻¹ᵀ * g1 (gmcFull phi) * ((1 : Matrix (Fin (M + 1)) (Fin (M + 1)) ℝ) ⊗ₖ R)⁻¹) := by
  have h := gmcFull_conj R⁻¹ᵀ phi
  rw [← kron_inv_transpose, transpose_transpose, transpose_transpose] at h
  exact h

theorem gmcRestrict_rotate (R : Matrix (Fin D) (Fin D) ℝ) (U : GIx (Fin (M + 1) × Fin D) → ℝ) :
    gmcRestrict (mkG (((1 : Matrix (Fin (M + 1)) (Fin (M + 1)) ℝ) ⊗ₖ R) *ᵥ g0 U)
        (((1 : Matrix (Fin (M + 1)) (Fin (M + 1)) ℝ) ⊗ₖ R) * g1 U * ((1 : Matrix (Fin (M + 1)) (Fin (M + 1)) ℝ) ⊗ₖ R)ᵀ))
      = mkC (fun n => R *ᵥ c0 (gmcRestrict U) n) (fun n => R * c1 (gmcRestrict U) n * Rᵀ)
          fun n => R * c2 (gmcRestrict U) n * Rᵀ := by
  unfold gmcRestrict
  congr 1
  · funext n i
    exact kron_one_mulVec R (g0 U) n i
  · funext n
    exact blk_conj R (g1 U) n n
  · funext n
    exact blk_conj R (g1 U) n.castSucc n.succ

/-- **C46** After `GaussianMarkovChain.rotate` the moments and the normaliser are those of the parameters, and the
precision of the whole chain is still positive definite. -/
theorem C46_gaussian_chain_rotate (R : Matrix (Fin D) (Fin D) ℝ) (hR : R.det ≠ 0) (inv : Option (Matrix (Fin D) (Fin D) ℝ))
    (logdet : Option ℝ) (ha : GoodArgs R inv logdet) (s : ExpState (GMCIx M D)) (hs : StateConsistent gmcMoments gmcCgf s)
    (hp : ((-2 : ℝ) • g1 (gmcFull s.phi)).PosDef) :
    StateConsistent gmcMoments gmcCgf (gmcRotate R inv logdet s)
      ∧ ((-2 : ℝ) • g1 (gmcFull (gmcRotate R inv logdet s).phi)).PosDef := by
  obtain ⟨e1, e2⟩ := goodArgs_eq ha
  obtain ⟨u, phi, g⟩ := s
  obtain ⟨h1, h2⟩ := hs
  simp only at h1 h2 hp
  subst h1 h2
  have hK : ((1 : Matrix (Fin (M + 1)) (Fin (M + 1)) ℝ) ⊗ₖ R).det ≠ 0 := by
    rw [det_kronecker, det_one, one_pow, one_mul]
    exact pow_ne_zero _ hR
  have hK' : Real.log ((1 : Matrix (Fin (M + 1)) (Fin (M + 1)) ℝ) ⊗ₖ R).det = ((M + 1 : ℕ) : ℝ) * Real.log R.det := by
    rw [det_kronecker, det_one, one_pow, one_mul, Real.log_pow, Fintype.card_fin]
  obtain ⟨hm, hc⟩ := rotate_core hK (gmcFull phi) hp.det_pos.ne'
  obtain ⟨hg1, hg2⟩ := C22_gaussian_chain phi hp
  unfold gmcRotate
  simp only [e1, e2]
  have hp' : ((-2 : ℝ) • g1 (gmcFull (mkC (fun n => R⁻¹ᵀ *ᵥ c0 phi n) (fun n => R⁻¹ᵀ * c1 phi n * R⁻¹)
      fun n => R⁻¹ᵀ * c2 phi n * R⁻¹))).PosDef := by
    rw [gmcFull_rotate, mkG_g1, rotate_prec]
    exact rotate_posDef hK hp
  obtain ⟨hg1', hg2'⟩ := C22_gaussian_chain _ hp'
  refine ⟨⟨?_, ?_⟩, hp'⟩
  · show mkC (fun n => R *ᵥ c0 (gmcMoments phi) n) (fun n => R * c1 (gmcMoments phi) n * Rᵀ)
      (fun n => R * c2 (gmcMoments phi) n * Rᵀ) = gmcMoments _
    rw [hg1', gmcFull_rotate, hm, gmcRestrict_rotate, hg1]
  · show gmcCgf phi + -((M + 1 : ℕ) : ℝ) * Real.log R.det = gmcCgf _
    rw [hg2', gmcFull_rotate, hc, hg2, hK']
    ring

theorem mkC_eta (u : GMCIx M D → ℝ) : mkC (c0 u) (c1 u) (c2 u) = u := by
  funext k; rcases k with ⟨n, i⟩ | ⟨n, i, j⟩ | ⟨n, i, j⟩ <;> rfl

/-- **C46** Rotating the chain back restores it. -/
theorem C46_gaussian_chain_rotate_back (R : Matrix (Fin D) (Fin D) ℝ) (hR : R.det ≠ 0) (s : ExpState (GMCIx M D)) :
    gmcRotate R⁻¹ none none (gmcRotate R none none s) = s := by
  have hu := hR.isUnit
  have k1 : ∀ X : Matrix (Fin D) (Fin D) ℝ, R⁻¹ * (R * X * Rᵀ) * R⁻¹ᵀ = X := fun X => by
    rw [show R⁻¹ * (R * X * Rᵀ) * R⁻¹ᵀ = (R⁻¹ * R) * X * (R⁻¹ * R)ᵀ by rw [transpose_mul]; simp only [Matrix.mul_assoc],
      nonsing_inv_mul _ hu, transpose_one, Matrix.one_mul, Matrix.mul_one]
  have k2 : ∀ X : Matrix (Fin D) (Fin D) ℝ, Rᵀ * (R⁻¹ᵀ * X * R⁻¹) * R = X := fun X => by
    rw [show Rᵀ * (R⁻¹ᵀ * X * R⁻¹) * R = (R⁻¹ * R)ᵀ * X * (R⁻¹ * R) by rw [transpose_mul]; simp only [Matrix.mul_assoc],
      nonsing_inv_mul _ hu, transpose_one, Matrix.one_mul, Matrix.mul_one]
  unfold gmcRotate
  simp only [Option.getD_none, slogdet, nonsing_inv_nonsing_inv _ hu]
  ext1
  · refine Eq.trans ?_ (mkC_eta s.u)
    change mkC (fun n => R⁻¹ *ᵥ (R *ᵥ c0 s.u n)) (fun n => R⁻¹ * (R * c1 s.u n * Rᵀ) * R⁻¹ᵀ)
      (fun n => R⁻¹ * (R * c2 s.u n * Rᵀ) * R⁻¹ᵀ) = _
    simp only [mulVec_mulVec, nonsing_inv_mul _ hu, one_mulVec, k1]
  · refine Eq.trans ?_ (mkC_eta s.phi)
    change mkC (fun n => Rᵀ *ᵥ (R⁻¹ᵀ *ᵥ c0 s.phi n)) (fun n => Rᵀ * (R⁻¹ᵀ * c1 s.phi n * R⁻¹) * R)
      (fun n => Rᵀ * (R⁻¹ᵀ * c2 s.phi n * R⁻¹) * R) = _
    simp only [mulVec_mulVec, ← transpose_mul, nonsing_inv_mul _ hu, transpose_one, one_mulVec]
    simp only [k2]
  · simp [det_nonsing_inv, Real.log_inv]

/-! ### examples -/

theorem posDef_half {ι : Type*} [Fintype ι] [DecidableEq ι] : ((-2 : ℝ) • ((-0.5 : ℝ) • (1 : Matrix ι ι ℝ))).PosDef := by
  rw [smul_smul, show (-2 : ℝ) * -0.5 = 1 by norm_num, one_smul]
  exact PosDef.one

/-- A shear of a plane, and the state of a node with unit precision. -/
noncomputable def exampleState : ExpState (GIx (Fin 2)) :=
  let phi := mkG ![1, 2] ((-0.5 : ℝ) • (1 : Matrix (Fin 2) (Fin 2) ℝ))
  ⟨gaussianMoments phi, phi, gaussianCgf phi⟩

theorem shear_det : (!![1, 1; 0, 2] : Matrix (Fin 2) (Fin 2) ℝ).det ≠ 0 := by simp [det_fin_two]

example : StateConsistent gaussianMoments gaussianCgf (gaussianRotate !![1, 1; 0, 2] none none exampleState)
    ∧ g0 (gaussianRotate !![1, 1; 0, 2] none none exampleState).u = ![3, 4] := by
  refine ⟨(C46_gaussian_rotate _ shear_det none none ⟨nofun, nofun⟩ _ ⟨rfl, rfl⟩ posDef_half).1, ?_⟩
  change _ *ᵥ ((-2 : ℝ) • ((-0.5 : ℝ) • (1 : Matrix (Fin 2) (Fin 2) ℝ)))⁻¹ *ᵥ ![1, 2] = _
  rw [smul_smul, show (-2 : ℝ) * -0.5 = 1 by norm_num, one_smul, inv_one, one_mulVec]
  funext i
  match i with
  | 0 => simp [mulVec, dotProduct, Fin.sum_univ_two]; norm_num
  | 1 => simp [mulVec, dotProduct, Fin.sum_univ_two]; norm_num

example : StateConsistent gaussianMoments gaussianCgf (gaussianTranslate ![5, -1] exampleState) :=
  (C46_gaussian_translate _ _ ⟨rfl, rfl⟩ posDef_half).1

/-- The same arguments as `RotationOptimizer` gives. -/
example : StateConsistent gaussianMoments gaussianCgf
    (gaussianRotate (!![1, 1; 0, 2] : Matrix (Fin 2) (Fin 2) ℝ)⁻¹ᵀ (some !![1, 1; 0, 2]ᵀ) (some (-slogdet !![1, 1; 0, 2])) exampleState) :=
  (C46_gaussian_rotate _ (C46_opposite_args _ shear_det).1 _ _ (C46_opposite_args _ shear_det).2 _ ⟨rfl, rfl⟩ posDef_half).1

/-- Rotating the second axis of a 3 × 2 array, counted from the end. -/
example : ∃ k, axisOf 2 (-1) = .ok k ∧ k = 1 := ⟨1, (C46_axis (r := 2) (-1) 1).2 (by right; rfl), rfl⟩

noncomputable def exampleArray : ExpState (GIx (∀ l : Fin 2, Fin ((![3, 2] : Fin 2 → ℕ) l))) :=
  let phi := mkG (fun _ => 1) ((-0.5 : ℝ) • 1)
  ⟨gaussianMoments phi, phi, gaussianCgf phi⟩

example : StateConsistent gaussianMoments gaussianCgf
    (ardRotate (dims := ![3, 2]) 1 (!![1, 1; 0, 2] : Matrix (Fin 2) (Fin 2) ℝ) none none exampleArray) :=
  (C46_gaussian_ard_rotate (dims := ![3, 2]) 1 (!![1, 1; 0, 2] : Matrix (Fin 2) (Fin 2) ℝ) shear_det none none ⟨nofun, nofun⟩ _
    ⟨rfl, rfl⟩ posDef_half).1

example : gaussianRotateMatrix (!![1, 1; 0, 2] : Matrix (Fin 2) (Fin 2) ℝ) (1 : Matrix (Fin 3) (Fin 3) ℝ)
      (let phi := mkG (fun _ => 1) ((-0.5 : ℝ) • 1); ⟨gaussianMoments phi, phi, gaussianCgf phi⟩)
    = gaussianRotate (!![1, 1; 0, 2] ⊗ₖ 1) none none (let phi := mkG (fun _ => 1) ((-0.5 : ℝ) • 1); ⟨gaussianMoments phi, phi, gaussianCgf phi⟩) :=
  (C46_rotate_matrix _ _ shear_det (by simp) _ ⟨rfl, rfl⟩ posDef_half).1

/-- A Gaussian-gamma posterior. -/
noncomputable def exampleGG : ExpState (GGIx (Fin 2)) :=
  let phi := mkGG ![1, 1] ((-0.5 : ℝ) • (1 : Matrix (Fin 2) (Fin 2) ℝ)) (-2) 3
  ⟨ggMoments phi, phi, ggCgf phi⟩

example : StateConsistent ggMoments ggCgf (ggRotate !![1, 1; 0, 2] none none exampleGG)
    ∧ StateConsistent ggMoments ggCgf (ggTranslate ![5, -1] exampleGG) := by
  refine ⟨(C46_gaussian_gamma_rotate _ shear_det none none ⟨nofun, nofun⟩ _ ⟨rfl, rfl⟩ posDef_half).1,
    (C46_gaussian_gamma_translate _ _ ⟨rfl, rfl⟩ posDef_half (by show (0 : ℝ) < 3; norm_num) ?_).1⟩
  change (0 : ℝ) < -(-2) - 0.5 * ((((-2 : ℝ) • ((-0.5 : ℝ) • (1 : Matrix (Fin 2) (Fin 2) ℝ)))⁻¹ *ᵥ ![1, 1]) ⬝ᵥ ![1, 1])
  rw [smul_smul, show (-2 : ℝ) * -0.5 = 1 by norm_num, one_smul, inv_one, one_mulVec]
  simp [dotProduct, Fin.sum_univ_two]
  norm_num

/-- A chain of two states. -/
noncomputable def exampleChain : ExpState (GMCIx 1 2) :=
  let phi := mkC (fun _ => ![1, 2]) (fun _ => (-0.5 : ℝ) • 1) fun _ => 0
  ⟨gmcMoments phi, phi, gmcCgf phi⟩

example : StateConsistent gmcMoments gmcCgf (gmcRotate !![1, 1; 0, 2] none none exampleChain) := by
  refine (C46_gaussian_chain_rotate _ shear_det none none ⟨nofun, nofun⟩ _ ⟨rfl, rfl⟩ ?_).1
  have : g1 (gmcFull exampleChain.phi) = (-0.5 : ℝ) • 1 := by
    ext p q
    have h := congrFun (congrFun (blk_full exampleChain.phi p.1 q.1) p.2) q.2
    refine h.trans ?_
    change (if p.1 = q.1 then (-0.5 : ℝ) • (1 : Matrix (Fin 2) (Fin 2) ℝ) else if h : p.1.val + 1 = q.1.val then (0.5 : ℝ) • 0
      else if h : q.1.val + 1 = p.1.val then (0.5 : ℝ) • 0ᵀ else 0) p.2 q.2 = _
    by_cases h : p.1 = q.1
    · rw [if_pos h]
      rw [Matrix.smul_apply, Matrix.smul_apply, one_apply, one_apply]
      simp only [Prod.ext_iff, h, true_and]
    · have : ((if p.1 = q.1 then (-0.5 : ℝ) • (1 : Matrix (Fin 2) (Fin 2) ℝ) else if h : p.1.val + 1 = q.1.val then (0.5 : ℝ) • 0
        else if h : q.1.val + 1 = p.1.val then (0.5 : ℝ) • 0ᵀ else 0)) = 0 := by
        simp [h]
      rw [this]
      simp [one_apply, Prod.ext_iff, h]
  rw [this]
  exact posDef_half

end

end Verif
