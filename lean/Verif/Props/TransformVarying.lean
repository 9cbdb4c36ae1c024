import Verif.Model.TransformVarying
import Verif.Props.TransformChainGradient

/-!
# C78: the rotation of chains with varying and switching dynamics
-/

namespace Verif
open Spec Matrix

section
variable {P K : Type*} [Fintype P] [Fintype K] {M D : Nat} {κ : Type} [Fintype κ]

/-! ### specification: the moments of the dynamics -/

/-- the moments of a row of `A = Σ_k s_k B_k`, where `b` are the moments of that row of `B` and `S` those of the weights -/
def Spec.varyRow {ι : Type*} (b : GIx (ι × K) → ℝ) (S : GIx K → ℝ) : GIx ι → ℝ :=
  mkG (fun i => ∑ k, g0 b (i, k) * g0 S k) (of fun i j => ∑ k, ∑ l, g1 b (i, k) (j, l) * g1 S k l)

/-- the moments of a row of `A = B_z`, where `b k` are the moments of that row of `B_k` and `Z` the probabilities of `z` -/
def Spec.switchRow {ι : Type*} (b : K → GIx ι → ℝ) (Z : K → ℝ) : GIx ι → ℝ :=
  mkG (fun i => ∑ k, Z k * g0 (b k) i) (of fun i j => ∑ k, Z k * g1 (b k) i j)

/-! ### lemmas -/

/-- the terms of the chains after a rotation, by the sums which the moments of the rotated dynamics give -/
theorem chain_terms_rotate [DecidableEq κ] {R : Matrix (Fin D) (Fin D) ℝ} (hR : R.det ≠ 0) (v : P → GWIx (Fin D) → ℝ)
    (hv : ∀ p, (gw2 (v p))ᵀ = gw2 (v p)) (z : P → InpIx M κ → ℝ) (s : P → ExpState (GMCIx M D))
    (A : P → Fin M → Fin D → GIx (Fin D ⊕ κ) → ℝ) (hA : ∀ p m d, (g1 (A p m d))ᵀ = g1 (A p m d)) (S : ChainSums P D)
    (e1 : S.X0X0 = fun p => c1 (s p).u 0) (e2 : S.Lambda = fun p => gw2 (v p)) (e3 : S.XnXn = ∑ p, ∑ m : Fin M, c1 (s p).u m.succ)
    (e4 : S.Lambda_mu_X0 = ∑ p, vecMulVec (gw0 (v p)) (c0 (s p).u 0))
    (t1 : ∑ p, ∑ m, ((of fun d => g0 (A p m d)) * chainXpXn (gmcRotate R none none (s p)).u (z p) m).trace = (R * S.A_XpXn * Rᵀ).trace)
    (t2 : ∑ p, ∑ m, ∑ d, frob (g1 (A p m d)) (chainXpXp (gmcRotate R none none (s p)).u (z p) m)
      = (R * S.A_XpXp_A * Rᵀ).trace + ∑ d, colSum R d ^ 2 * S.CovA_XpXp d) :
    ∑ p, chainTerm (v p) (unitDyn (A p)) (z p) (gmcRotate R none none (s p))
      = chainBound (M + 1) (Fintype.card P) S R (slogdet R)
        + (∑ p, (-0.5 * gw1 (v p) + 0.5 * gw3 (v p)) - ∑ p, ((s p).g + (s p).phi ⬝ᵥ (s p).u)) := by
  have t3 : ∀ p, gw0 (v p) ⬝ᵥ c0 (gmcRotate R none none (s p)).u 0 = (vecMulVec (gw0 (v p)) (c0 (s p).u 0) * Rᵀ).trace := by
    intro p
    rw [vecMulVec_mul, vecMul_transpose, trace_vecMulVec]
    rfl
  have t4 : ∀ p, frob (gw2 (v p)) (c1 (gmcRotate R none none (s p)).u 0) = (gw2 (v p) * R * c1 (s p).u 0 * Rᵀ).trace := by
    intro p
    rw [frob_eq_trace, hv]
    change (gw2 (v p) * (R * c1 (s p).u 0 * Rᵀ)).trace = _
    simp only [Matrix.mul_assoc]
  have hterm : ∀ p, chainTerm (v p) (unitDyn (A p)) (z p) (gmcRotate R none none (s p))
      = ((vecMulVec (gw0 (v p)) (c0 (s p).u 0) * Rᵀ).trace - 0.5 * (gw2 (v p) * R * c1 (s p).u 0 * Rᵀ).trace
          + ∑ m : Fin M, (-0.5 * (R * c1 (s p).u m.succ * Rᵀ).trace
            + ((of fun d => g0 (A p m d)) * chainXpXn (gmcRotate R none none (s p)).u (z p) m).trace
            - 0.5 * ∑ d, frob (g1 (A p m d)) (chainXpXp (gmcRotate R none none (s p)).u (z p) m)))
        + (M + 1 : ℕ) * slogdet R + (-0.5 * gw1 (v p) + 0.5 * gw3 (v p)) - ((s p).g + (s p).phi ⬝ᵥ (s p).u) := by
    intro p
    unfold chainTerm
    rw [chain_entropy_rotate hR, unit_chain_logpdf _ _ _ fun m d => hA p m d, t3, t4]
    have : ∀ m : Fin M, c1 (gmcRotate R none none (s p)).u m.succ = R * c1 (s p).u m.succ * Rᵀ := fun m => rfl
    simp only [this]
    ring
  rw [Finset.sum_congr rfl fun p _ => hterm p]
  simp only [Finset.sum_add_distrib, Finset.sum_sub_distrib, Finset.sum_const, Finset.card_univ, nsmul_eq_mul, ← Finset.mul_sum]
  rw [t1, t2]
  unfold chainBound gaussianLogpdf gaussianEntropy
  rw [e1, e2, e3, e4]
  simp only [Matrix.mul_sum, Matrix.sum_mul, trace_sum]
  have t5 : ∑ d, colSum R d * S.CovA_XpXp d * colSum R d = ∑ d, colSum R d ^ 2 * S.CovA_XpXp d :=
    Finset.sum_congr rfl fun d _ => by ring
  rw [t5]
  push_cast
  ring

/-! ### switching dynamics -/

section
variable [DecidableEq κ] {B : Type*}

/-- the rotated rows with the rotated states, first moments -/
theorem rotatedRows_XpXn (sA : B → Fin D → ExpState (GIx (Fin D ⊕ κ)))
    (hs : ∀ b d, StateConsistent gaussianMoments gaussianCgf (sA b d)) (hd : ∀ b d, ((-2 : ℝ) • g1 (sA b d).phi).PosDef)
    {R : Matrix (Fin D) (Fin D) ℝ} (hR : R.det ≠ 0) (hQ : ∀ d, colSum R d ≠ 0) (s : ExpState (GMCIx M D)) (z : InpIx M κ → ℝ)
    (m : Fin M) (b : B) :
    ((of fun d => g0 (rotatedRows (withInputs R⁻¹ᵀ) R sA (b, d)).u) * chainXpXn (gmcRotate R none none s).u z m).trace
      = (R * ((of fun d => g0 (sA b d).u) * chainXpXn s.u z m) * Rᵀ).trace := by
  have hW : (withInputs (κ := κ) R).det ≠ 0 := by rw [withInputs_det]; exact hR
  have eW : withInputs (κ := κ) R⁻¹ᵀ = (withInputs R)⁻¹ᵀ := by rw [withInputs_inv hR, withInputs_transpose]
  have hW' : (withInputs (κ := κ) R⁻¹ᵀ).det ≠ 0 := by
    rw [withInputs_det]
    exact (C46_opposite_args R hR).1
  obtain ⟨e0, -⟩ := rotatedRows_moments sA hs hd (withInputs R⁻¹ᵀ) hW' R hQ
  let Am : Matrix (Fin D) (Fin D ⊕ κ) ℝ := of fun d => g0 (sA b d).u
  have eA : (of fun d => g0 (rotatedRows (withInputs R⁻¹ᵀ) R sA (b, d)).u) = R * Am * (withInputs R)⁻¹ := by
    ext d j
    rw [of_apply, e0, eW, mulVec_transpose]
    rfl
  rw [eA, rotate_XpXn]
  congr 1
  rw [Matrix.mul_assoc (withInputs R), Matrix.mul_assoc (R * Am), nonsing_inv_mul_cancel_left _ _ hW.isUnit]
  simp only [Matrix.mul_assoc]
  rfl

/-- the rotated rows with the rotated states, second moments -/
theorem rotatedRows_XpXp (sA : B → Fin D → ExpState (GIx (Fin D ⊕ κ)))
    (hs : ∀ b d, StateConsistent gaussianMoments gaussianCgf (sA b d)) (hd : ∀ b d, ((-2 : ℝ) • g1 (sA b d).phi).PosDef)
    {R : Matrix (Fin D) (Fin D) ℝ} (hR : R.det ≠ 0) (hQ : ∀ d, colSum R d ≠ 0) (s : ExpState (GMCIx M D)) (z : InpIx M κ → ℝ)
    (m : Fin M) (b : B) :
    ∑ d, frob (g1 (rotatedRows (withInputs R⁻¹ᵀ) R sA (b, d)).u) (chainXpXp (gmcRotate R none none s).u z m)
      = (R * ((of fun d => g0 (sA b d).u) * chainXpXp s.u z m * (of fun d => g0 (sA b d).u)ᵀ) * Rᵀ).trace
        + ∑ d, colSum R d ^ 2 * frob (g1 (sA b d).u - vecMulVec (g0 (sA b d).u) (g0 (sA b d).u)) (chainXpXp s.u z m) := by
  have hW : (withInputs (κ := κ) R).det ≠ 0 := by rw [withInputs_det]; exact hR
  have eW : withInputs (κ := κ) R⁻¹ᵀ = (withInputs R)⁻¹ᵀ := by rw [withInputs_inv hR, withInputs_transpose]
  have hW' : (withInputs (κ := κ) R⁻¹ᵀ).det ≠ 0 := by
    rw [withInputs_det]
    exact (C46_opposite_args R hR).1
  obtain ⟨-, e1⟩ := rotatedRows_moments sA hs hd (withInputs R⁻¹ᵀ) hW' R hQ
  let Am : Matrix (Fin D) (Fin D ⊕ κ) ℝ := of fun d => g0 (sA b d).u
  have h : ∀ d, frob (g1 (rotatedRows (withInputs R⁻¹ᵀ) R sA (b, d)).u) (chainXpXp (gmcRotate R none none s).u z m)
      = colSum R d ^ 2 * frob (g1 (sA b d).u - vecMulVec (g0 (sA b d).u) (g0 (sA b d).u)) (chainXpXp s.u z m)
        + frob (vecMulVec ((R * Am) d) ((R * Am) d)) (chainXpXp s.u z m) := by
    intro d
    rw [e1, rotate_XpXp, eW, transpose_transpose, frob_rotate hW, frob_add_left, frob_smul_left]
    rfl
  rw [Finset.sum_congr rfl fun d _ => h d, Finset.sum_add_distrib, add_comm, frob_rows, transpose_mul]
  simp only [Matrix.mul_assoc]
  rfl

theorem rotatedRows_symm (sA : B → Fin D → ExpState (GIx (Fin D ⊕ κ)))
    (hs : ∀ b d, StateConsistent gaussianMoments gaussianCgf (sA b d)) (hd : ∀ b d, ((-2 : ℝ) • g1 (sA b d).phi).PosDef)
    {R : Matrix (Fin D) (Fin D) ℝ} (hR : R.det ≠ 0) (hQ : ∀ d, colSum R d ≠ 0) (b : B) (d : Fin D) :
    (g1 (rotatedRows (withInputs R⁻¹ᵀ) R sA (b, d)).u)ᵀ = g1 (rotatedRows (withInputs R⁻¹ᵀ) R sA (b, d)).u := by
  have hW' : (withInputs (κ := κ) R⁻¹ᵀ).det ≠ 0 := by
    rw [withInputs_det]
    exact (C46_opposite_args R hR).1
  obtain ⟨h1, h2⟩ := rotatedRows_consistent sA hs hd (withInputs R⁻¹ᵀ) hW' R hQ (b, d)
  have := (secondMoment_gaussian _ h2).posSemidef.isHermitian
  rw [← h1.1] at this
  rwa [IsHermitian, conjTranspose_eq_transpose_of_trivial] at this

end

theorem frob_sum_left {ι T : Type*} [Fintype ι] [Fintype T] (f : T → Matrix ι ι ℝ) (X : Matrix ι ι ℝ) :
    frob (∑ t, f t) X = ∑ t, frob (f t) X := by
  simp only [frob, Matrix.sum_apply, Finset.sum_mul]
  rw [Finset.sum_congr rfl fun i _ => Finset.sum_comm, Finset.sum_comm]

theorem frob_sum_right {ι T : Type*} [Fintype ι] [Fintype T] (X : Matrix ι ι ℝ) (f : T → Matrix ι ι ℝ) :
    frob X (∑ t, f t) = ∑ t, frob X (f t) := by
  simp only [frob, Matrix.sum_apply, Finset.mul_sum]
  rw [Finset.sum_congr rfl fun i _ => Finset.sum_comm, Finset.sum_comm]

/-- **C78** Switching dynamics: for every invertible rotation whose columns do not sum to zero, the terms of the chains in the lower
bound after rotating the chains and every dynamics matrix are the bound which the rotator computes plus a constant. -/
theorem C78_switching [DecidableEq κ] {Q : Type*} (β : P → Q) (v : P → GWIx (Fin D) → ℝ) (hv : ∀ p, (gw2 (v p))ᵀ = gw2 (v p))
    (z : P → InpIx M κ → ℝ) (s : P → ExpState (GMCIx M D)) (Z : P → Fin M → K → ℝ) (sB : Q × K → Fin D → ExpState (GIx (Fin D ⊕ κ)))
    (hs : ∀ b d, StateConsistent gaussianMoments gaussianCgf (sB b d)) (hd : ∀ b d, ((-2 : ℝ) • g1 (sB b d).phi).PosDef) :
    ∃ C, ∀ R : Matrix (Fin D) (Fin D) ℝ, R.det ≠ 0 → (∀ d, colSum R d ≠ 0) →
      ∑ p, chainTerm (v p)
          (unitDyn fun m d => switchRow (fun k => (chainRotateA R R⁻¹ (slogdet R) sB ((β p, k), d)).u) (Z p m)) (z p)
          (gmcRotate R none none (s p))
        = chainBound (M + 1) (Fintype.card P)
            (switchSetup β (fun p => (s p).u) v (fun q k d => (sB (q, k) d).u) Z z) R (slogdet R) + C := by
  refine ⟨∑ p, (-0.5 * gw1 (v p) + 0.5 * gw3 (v p)) - ∑ p, ((s p).g + (s p).phi ⬝ᵥ (s p).u), fun R hR hQ => ?_⟩
  rw [chainRotateA_eq hR]
  refine chain_terms_rotate hR v hv z s _ ?_ _ rfl rfl rfl rfl ?_ ?_
  · intro p m d
    ext i j
    change ∑ k, Z p m k * g1 _ j i = ∑ k, Z p m k * g1 _ i j
    refine Finset.sum_congr rfl fun k _ => ?_
    congr 1
    exact congrFun (congrFun (rotatedRows_symm sB hs hd hR hQ (β p, k) d) i) j
  · have e : ∀ p m, (of fun d => g0 (switchRow (fun k => (rotatedRows (withInputs R⁻¹ᵀ) R sB ((β p, k), d)).u) (Z p m)))
        = ∑ k, Z p m k • (of fun d => g0 (rotatedRows (withInputs R⁻¹ᵀ) R sB ((β p, k), d)).u) := by
      intro p m
      ext d i
      rw [Matrix.sum_apply]
      rfl
    have e' : ∀ p m, ((of fun d => g0 (switchRow (fun k => (rotatedRows (withInputs R⁻¹ᵀ) R sB ((β p, k), d)).u) (Z p m)))
        * chainXpXn (gmcRotate R none none (s p)).u (z p) m).trace
        = ∑ k, Z p m k * (R * ((of fun d => g0 (sB (β p, k) d).u) * chainXpXn (s p).u (z p) m) * Rᵀ).trace := by
      intro p m
      rw [e, Matrix.sum_mul, trace_sum]
      refine Finset.sum_congr rfl fun k _ => ?_
      rw [Matrix.smul_mul, trace_smul, rotatedRows_XpXn sB hs hd hR hQ]
      rfl
    simp only [e']
    unfold switchSetup
    simp only [Matrix.mul_sum, Matrix.sum_mul, trace_sum, Matrix.mul_smul, Matrix.smul_mul, trace_smul, smul_eq_mul]
    exact Finset.sum_congr rfl fun p _ => Finset.sum_comm
  · have e : ∀ p m d, g1 (switchRow (fun k => (rotatedRows (withInputs R⁻¹ᵀ) R sB ((β p, k), d)).u) (Z p m))
        = ∑ k, Z p m k • g1 (rotatedRows (withInputs R⁻¹ᵀ) R sB ((β p, k), d)).u := by
      intro p m d
      ext i j
      rw [Matrix.sum_apply]
      rfl
    have e' : ∀ p m, ∑ d, frob (g1 (switchRow (fun k => (rotatedRows (withInputs R⁻¹ᵀ) R sB ((β p, k), d)).u) (Z p m)))
        (chainXpXp (gmcRotate R none none (s p)).u (z p) m)
        = ∑ k, Z p m k * ((R * ((of fun d => g0 (sB (β p, k) d).u) * chainXpXp (s p).u (z p) m * (of fun d => g0 (sB (β p, k) d).u)ᵀ) * Rᵀ).trace
        + ∑ d, colSum R d ^ 2 * frob (g1 (sB (β p, k) d).u - vecMulVec (g0 (sB (β p, k) d).u) (g0 (sB (β p, k) d).u))
          (chainXpXp (s p).u (z p) m)) := by
      intro p m
      simp only [e, frob_sum_left, frob_smul_left]
      rw [Finset.sum_comm]
      refine Finset.sum_congr rfl fun k _ => ?_
      rw [← Finset.mul_sum, rotatedRows_XpXp sB hs hd hR hQ]
    simp only [e', mul_add, Finset.sum_add_distrib]
    congr 1
    · unfold switchSetup
      simp only [Matrix.mul_sum, Matrix.sum_mul, trace_sum, Matrix.mul_smul, Matrix.smul_mul, trace_smul, smul_eq_mul]
      exact Finset.sum_congr rfl fun p _ => Finset.sum_comm
    · have c : ∀ d, (switchSetup β (fun p => (s p).u) v (fun q k d => (sB (q, k) d).u) Z z).CovA_XpXp d
          = ∑ p, ∑ m, ∑ k, Z p m k * frob (g1 (sB (β p, k) d).u - vecMulVec (g0 (sB (β p, k) d).u) (g0 (sB (β p, k) d).u))
            (chainXpXp (s p).u (z p) m) := by
        intro d
        change ∑ p, ∑ k, ∑ i, ∑ j, (∑ m, Z p m k • chainXpXp (s p).u (z p) m) i j
          * (g1 (sB (β p, k) d).u - vecMulVec (g0 (sB (β p, k) d).u) (g0 (sB (β p, k) d).u)) i j = _
        refine Finset.sum_congr rfl fun p _ => ?_
        rw [Finset.sum_comm (s := (Finset.univ : Finset (Fin M)))]
        refine Finset.sum_congr rfl fun k _ => ?_
        simp only [← frob_smul_right]
        rw [← frob_sum_right]
        exact Finset.sum_congr rfl fun i _ => Finset.sum_congr rfl fun j _ => mul_comm _ _
      simp only [c, Finset.mul_sum]
      rw [Finset.sum_comm (s := (Finset.univ : Finset (Fin D)))]
      refine Finset.sum_congr rfl fun p _ => ?_
      rw [Finset.sum_comm (s := (Finset.univ : Finset (Fin D)))]
      refine Finset.sum_congr rfl fun m _ => ?_
      rw [Finset.sum_comm (s := (Finset.univ : Finset (Fin D)))]
      exact Finset.sum_congr rfl fun k _ => Finset.sum_congr rfl fun d _ => by ring

/-! ### varying dynamics -/

section
variable [DecidableEq κ] [DecidableEq K]

/-- the rotation of the first axis of two -/
abbrev firstAxis {ι : Type*} (W : Matrix ι ι ℝ) : Matrix (ι × K) (ι × K) ℝ := kroneckerMap (· * ·) W 1

theorem firstAxis_mulVec {ι : Type*} [Fintype ι] (W : Matrix ι ι ℝ) (x : ι × K → ℝ) (i : ι) (k : K) :
    (firstAxis W *ᵥ x) (i, k) = ∑ j, W i j * x (j, k) := by
  simp [mulVec, dotProduct, Fintype.sum_prod_type, kroneckerMap_apply, one_apply]

theorem firstAxis_sandwich {ι : Type*} [Fintype ι] (W : Matrix ι ι ℝ) (G : Matrix (ι × K) (ι × K) ℝ) (i j : ι) (k l : K) :
    (firstAxis W * G * (firstAxis W)ᵀ : Matrix (ι × K) (ι × K) ℝ) (i, k) (j, l) = ∑ b, (∑ a, W i a * G (a, k) (b, l)) * W j b := by
  simp [Matrix.mul_apply, Fintype.sum_prod_type, kroneckerMap_apply, one_apply]

/-- the first moments of the rotated dynamics -/
theorem varyRow_rotate_first {ι : Type*} [Fintype ι] (W : Matrix ι ι ℝ) (x : ι × K → ℝ) (S : K → ℝ) :
    (fun i => ∑ k, (firstAxis W *ᵥ x) (i, k) * S k) = W *ᵥ fun i => ∑ k, x (i, k) * S k := by
  funext i
  simp only [firstAxis_mulVec]
  simp only [mulVec, dotProduct, Finset.sum_mul, Finset.mul_sum]
  rw [Finset.sum_comm]
  exact Finset.sum_congr rfl fun _ _ => Finset.sum_congr rfl fun _ _ => by ring

/-- the second moments of the rotated dynamics -/
theorem varyRow_rotate_second {ι : Type*} [Fintype ι] (W : Matrix ι ι ℝ) (G : Matrix (ι × K) (ι × K) ℝ) (S : K → K → ℝ) :
    (of fun i j => ∑ k, ∑ l, (firstAxis W * G * (firstAxis W)ᵀ : Matrix (ι × K) (ι × K) ℝ) (i, k) (j, l) * S k l : Matrix ι ι ℝ)
      = W * (of fun i j => ∑ k, ∑ l, G (i, k) (j, l) * S k l) * Wᵀ := by
  ext i j
  simp only [of_apply, firstAxis_sandwich]
  simp only [of_apply, Matrix.mul_apply, transpose_apply, Finset.sum_mul, Finset.mul_sum]
  rw [Finset.sum_congr rfl fun k _ => Finset.sum_comm, Finset.sum_comm]
  refine Finset.sum_congr rfl fun b _ => ?_
  rw [Finset.sum_congr rfl fun k _ => Finset.sum_comm, Finset.sum_comm]
  refine Finset.sum_congr rfl fun a _ => Finset.sum_congr rfl fun k _ => Finset.sum_congr rfl fun l _ => by ring

theorem firstAxis_det {ι : Type*} [Fintype ι] [DecidableEq ι] (W : Matrix ι ι ℝ) :
    (firstAxis (K := K) W).det = W.det ^ Fintype.card K := by
  rw [firstAxis, det_kronecker, det_one, one_pow, mul_one]

/-- the arguments which `rotate` gives to the rotator of `B` -/
theorem varyRotateB_eq {R : Matrix (Fin D) (Fin D) ℝ} (hR : R.det ≠ 0) (sB : Fin D → ExpState (GIx ((Fin D ⊕ κ) × K))) :
    varyRotateB R R⁻¹ (slogdet R) sB = fun d => rotatedRows (firstAxis (withInputs R⁻¹ᵀ)) R (fun _ : Unit => sB) ((), d) := by
  have hW : (withInputs (κ := κ) R).det ≠ 0 := by rw [withInputs_det]; exact hR
  have hW2 : (firstAxis (K := K) (withInputs (κ := κ) R)).det ≠ 0 := by rw [firstAxis_det]; exact pow_ne_zero _ hW
  have eW : withInputs (κ := κ) R⁻¹ᵀ = (withInputs R)⁻¹ᵀ := by rw [withInputs_inv hR, withInputs_transpose]
  have eW2 : firstAxis (K := K) (withInputs (κ := κ) R⁻¹ᵀ) = (firstAxis (withInputs R))⁻¹ᵀ := by
    rw [eW, firstAxis, firstAxis, inv_kronecker, inv_one, ← kroneckerMap_transpose, transpose_one]
  have el : (Fintype.card K : ℝ) * -slogdet R = -slogdet (firstAxis (K := K) (withInputs (κ := κ) R)) := by
    unfold slogdet
    rw [firstAxis_det, withInputs_det, Real.log_pow, mul_neg]
  have et : kroneckerMap (· * ·) (withInputs (κ := κ) Rᵀ) (1 : Matrix K K ℝ) = (firstAxis (withInputs R))ᵀ := by
    rw [firstAxis, ← kroneckerMap_transpose, transpose_one, withInputs_transpose]
  funext d
  unfold varyRotateB rotatedRows
  congr 1
  funext d
  rw [et, el]
  change gaussianRotate (firstAxis (withInputs R⁻¹ᵀ)) _ _ _ = _
  rw [eW2]
  exact gaussianRotate_opposite hW2 _

/-- summing over the chains and their transitions -/
theorem vary_frob (G : Matrix ((Fin D ⊕ κ) × K) ((Fin D ⊕ κ) × K) ℝ) (S : P → Fin M → K → K → ℝ)
    (X : P → Fin M → Matrix (Fin D ⊕ κ) (Fin D ⊕ κ) ℝ) :
    ∑ p, ∑ m, frob (of fun i j => ∑ k, ∑ l, G (i, k) (j, l) * S p m k l) (X p m)
      = frob G (of fun a b => ∑ p, ∑ m, S p m a.2 b.2 * X p m a.1 b.1) := by
  have e : (of fun a b => ∑ p, ∑ m, S p m a.2 b.2 * X p m a.1 b.1 : Matrix ((Fin D ⊕ κ) × K) ((Fin D ⊕ κ) × K) ℝ)
      = ∑ p, ∑ m, of fun a b => S p m a.2 b.2 * X p m a.1 b.1 := by
    ext a b
    simp only [Matrix.sum_apply, of_apply]
  rw [e, frob_sum_right]
  refine Finset.sum_congr rfl fun p _ => ?_
  rw [frob_sum_right]
  refine Finset.sum_congr rfl fun m _ => ?_
  simp only [frob, of_apply, Fintype.sum_prod_type, Finset.sum_mul]
  refine Finset.sum_congr rfl fun i _ => ?_
  rw [Finset.sum_comm]
  refine Finset.sum_congr rfl fun k _ => Finset.sum_congr rfl fun j _ => Finset.sum_congr rfl fun l _ => by ring

/-- **C78** Varying dynamics: for every invertible rotation whose columns do not sum to zero, the terms of the chains in the lower
bound after rotating the chains and `B` are the bound which the rotator computes plus a constant. -/
theorem C78_varying (v : P → GWIx (Fin D) → ℝ) (hv : ∀ p, (gw2 (v p))ᵀ = gw2 (v p)) (z : P → InpIx M κ → ℝ)
    (s : P → ExpState (GMCIx M D)) (S : P → Fin M → GIx K → ℝ) (hS : ∀ p m, (g1 (S p m))ᵀ = g1 (S p m))
    (sB : Fin D → ExpState (GIx ((Fin D ⊕ κ) × K))) (hs : ∀ d, StateConsistent gaussianMoments gaussianCgf (sB d))
    (hd : ∀ d, ((-2 : ℝ) • g1 (sB d).phi).PosDef) :
    ∃ C, ∀ R : Matrix (Fin D) (Fin D) ℝ, R.det ≠ 0 → (∀ d, colSum R d ≠ 0) →
      ∑ p, chainTerm (v p) (unitDyn fun m d => varyRow (varyRotateB R R⁻¹ (slogdet R) sB d).u (S p m)) (z p)
          (gmcRotate R none none (s p))
        = chainBound (M + 1) (Fintype.card P) (varySetup (fun p => (s p).u) v (fun d => (sB d).u) S z) R (slogdet R) + C := by
  refine ⟨∑ p, (-0.5 * gw1 (v p) + 0.5 * gw3 (v p)) - ∑ p, ((s p).g + (s p).phi ⬝ᵥ (s p).u), fun R hR hQ => ?_⟩
  rw [varyRotateB_eq hR]
  have hW : (withInputs (κ := κ) R).det ≠ 0 := by rw [withInputs_det]; exact hR
  have eW : withInputs (κ := κ) R⁻¹ᵀ = (withInputs R)⁻¹ᵀ := by rw [withInputs_inv hR, withInputs_transpose]
  have hW' : (firstAxis (K := K) (withInputs (κ := κ) R⁻¹ᵀ)).det ≠ 0 := by
    rw [firstAxis_det, withInputs_det]
    exact pow_ne_zero _ (C46_opposite_args R hR).1
  obtain ⟨e0, e1⟩ := rotatedRows_moments (fun _ : Unit => sB) (fun _ => hs) (fun _ => hd) _ hW' R hQ
  have hsym : ∀ d, (g1 (rotatedRows (firstAxis (withInputs R⁻¹ᵀ)) R (fun _ : Unit => sB) ((), d)).u)ᵀ
      = g1 (rotatedRows (firstAxis (withInputs R⁻¹ᵀ)) R (fun _ : Unit => sB) ((), d)).u := by
    intro d
    obtain ⟨h1, h2⟩ := rotatedRows_consistent (fun _ : Unit => sB) (fun _ => hs) (fun _ => hd) _ hW' R hQ ((), d)
    have := (secondMoment_gaussian _ h2).posSemidef.isHermitian
    rw [← h1.1] at this
    rwa [IsHermitian, conjTranspose_eq_transpose_of_trivial] at this
  let Bm : Matrix (Fin D) ((Fin D ⊕ κ) × K) ℝ := of fun d => g0 (sB d).u
  refine chain_terms_rotate hR v hv z s _ ?_ _ rfl rfl rfl rfl ?_ ?_
  · intro p m d
    ext i j
    change ∑ k, ∑ l, g1 _ (j, k) (i, l) * g1 (S p m) k l = ∑ k, ∑ l, g1 _ (i, k) (j, l) * g1 (S p m) k l
    rw [Finset.sum_comm]
    refine Finset.sum_congr rfl fun k _ => Finset.sum_congr rfl fun l _ => ?_
    rw [← hsym d, transpose_apply, ← hS p m, transpose_apply]
    rw [hsym d, hS p m]
  · have e : ∀ p m, (of fun d => g0 (varyRow (rotatedRows (firstAxis (withInputs R⁻¹ᵀ)) R (fun _ : Unit => sB) ((), d)).u (S p m)))
        = R * (of fun d i => ∑ k, Bm d (i, k) * g0 (S p m) k) * (withInputs R)⁻¹ := by
      intro p m
      ext d i
      change (fun i => ∑ k, g0 (rotatedRows (firstAxis (withInputs R⁻¹ᵀ)) R (fun _ : Unit => sB) ((), d)).u (i, k) * g0 (S p m) k) i = _
      rw [e0, varyRow_rotate_first, eW, mulVec_transpose]
      have : (fun i => ∑ k, (∑ k_1, R d k_1 * g0 (sB k_1).u (i, k)) * g0 (S p m) k)
          = (R * (of fun d i => ∑ k, Bm d (i, k) * g0 (S p m) k)) d := by
        funext i
        simp only [Matrix.mul_apply, of_apply, Finset.sum_mul, Finset.mul_sum]
        rw [Finset.sum_comm]
        exact Finset.sum_congr rfl fun _ _ => Finset.sum_congr rfl fun _ _ => mul_assoc _ _ _
      rw [this]
      rfl
    have e' : ∀ p m, ((of fun d => g0 (varyRow (rotatedRows (firstAxis (withInputs R⁻¹ᵀ)) R (fun _ : Unit => sB) ((), d)).u (S p m)))
        * chainXpXn (gmcRotate R none none (s p)).u (z p) m).trace
        = (R * ((of fun d i => ∑ k, Bm d (i, k) * g0 (S p m) k) * chainXpXn (s p).u (z p) m) * Rᵀ).trace := by
      intro p m
      rw [e, rotate_XpXn]
      congr 1
      rw [Matrix.mul_assoc (withInputs R), Matrix.mul_assoc (R * _), nonsing_inv_mul_cancel_left _ _ hW.isUnit]
      simp only [Matrix.mul_assoc]
    have e3 : (varySetup (fun p => (s p).u) v (fun d => (sB d).u) S z).A_XpXn
        = ∑ p, ∑ m, (of fun d i => ∑ k, Bm d (i, k) * g0 (S p m) k) * chainXpXn (s p).u (z p) m := by
      ext d j
      change ∑ i, ∑ k, g0 (sB d).u (i, k) * ∑ p, ∑ m, g0 (S p m) k * chainXpXn (s p).u (z p) m i j = _
      simp only [Matrix.sum_apply, Matrix.mul_apply, of_apply, Finset.mul_sum, Finset.sum_mul]
      rw [Finset.sum_congr rfl fun i _ => Finset.sum_comm, Finset.sum_comm]
      refine Finset.sum_congr rfl fun p _ => ?_
      rw [Finset.sum_congr rfl fun i _ => Finset.sum_comm, Finset.sum_comm]
      exact Finset.sum_congr rfl fun m _ => Finset.sum_congr rfl fun i _ => Finset.sum_congr rfl fun k _ => (mul_assoc _ _ _).symm
    simp only [e', e3, Matrix.mul_sum, Matrix.sum_mul, trace_sum]
  · let SSX : Matrix ((Fin D ⊕ κ) × K) ((Fin D ⊕ κ) × K) ℝ :=
      of fun a b => ∑ p, ∑ m, g1 (S p m) a.2 b.2 * chainXpXp (s p).u (z p) m a.1 b.1
    let Cov := fun d => g1 (sB d).u - vecMulVec (g0 (sB d).u) (g0 (sB d).u)
    let G := fun d => colSum R d ^ 2 • Cov d + vecMulVec ((R * Bm) d) ((R * Bm) d)
    have e : ∀ p m d, frob (g1 (varyRow (rotatedRows (firstAxis (withInputs R⁻¹ᵀ)) R (fun _ : Unit => sB) ((), d)).u (S p m)))
        (chainXpXp (gmcRotate R none none (s p)).u (z p) m)
        = frob (of fun i j => ∑ k, ∑ l, G d (i, k) (j, l) * g1 (S p m) k l) (chainXpXp (s p).u (z p) m) := by
      intro p m d
      change frob (of fun i j => ∑ k, ∑ l,
        g1 (rotatedRows (firstAxis (withInputs R⁻¹ᵀ)) R (fun _ : Unit => sB) ((), d)).u (i, k) (j, l) * g1 (S p m) k l) _ = _
      rw [e1]
      rw [varyRow_rotate_second (ι := Fin D ⊕ κ) (K := K) _ _ (g1 (S p m)), rotate_XpXp, eW, transpose_transpose, frob_rotate hW]
      rfl
    simp only [e]
    have e2 : ∑ p, ∑ m, ∑ d, frob (of fun i j => ∑ k, ∑ l, G d (i, k) (j, l) * g1 (S p m) k l) (chainXpXp (s p).u (z p) m)
        = ∑ d, frob (G d) SSX := by
      rw [Finset.sum_congr rfl fun p _ => Finset.sum_comm, Finset.sum_comm]
      exact Finset.sum_congr rfl fun d _ => vary_frob (G d) (fun p m => g1 (S p m)) fun p m => chainXpXp (s p).u (z p) m
    rw [e2]
    simp only [G, frob_add_left, frob_smul_left, Finset.sum_add_distrib]
    rw [frob_rows, add_comm]
    congr 1
    · have e3 : (varySetup (fun p => (s p).u) v (fun d => (sB d).u) S z).A_XpXp_A = Bm * SSX * Bmᵀ := by
        ext d e
        simp only [Matrix.mul_apply, Fintype.sum_prod_type, transpose_apply]
        rfl
      rw [e3, transpose_mul]
      simp only [Matrix.mul_assoc]
    · refine Finset.sum_congr rfl fun d _ => ?_
      congr 1
      simp only [frob, Fintype.sum_prod_type]
      rfl

end

/-! ### gradients -/

theorem chainXpXp_symm {u : GMCIx M D → ℝ} (hu : ∀ n, (c1 u n)ᵀ = c1 u n) {z : InpIx M κ → ℝ} (hz : ∀ m k l, i1 z m k l = i1 z m l k)
    (m : Fin M) : (chainXpXp u z m)ᵀ = chainXpXp u z m := by
  unfold chainXpXp
  rw [fromBlocks_transpose, hu, transpose_transpose]
  congr 1
  ext k l
  exact hz m l k

/-- **C78** Varying dynamics: what `_compute_bound` returns second is the gradient of what it returns first. -/
theorem C78_varying_gradient (N nP : ℕ) (v : P → GWIx (Fin D) → ℝ) (hv : ∀ p, (gw2 (v p))ᵀ = gw2 (v p)) (z : P → InpIx M κ → ℝ)
    (hz : ∀ p m k l, i1 (z p) m k l = i1 (z p) m l k) (u : P → GMCIx M D → ℝ) (hu : ∀ p n, (c1 (u p) n)ᵀ = c1 (u p) n)
    (S : P → Fin M → GIx K → ℝ) (hS : ∀ p m, (g1 (S p m))ᵀ = g1 (S p m)) (b : Fin D → GIx ((Fin D ⊕ κ) × K) → ℝ)
    (γ : ℝ → Matrix (Fin D) (Fin D) ℝ) (E : Matrix (Fin D) (Fin D) ℝ) (h : CurveDeriv γ E) (h0 : (γ 0).det ≠ 0) :
    HasDerivAt (fun t => chainBound N nP (varySetup u v b S z) (γ t) (slogdet (γ t)))
      (frob (chainGrad N nP (varySetup u v b S z) (γ 0) (γ 0)⁻¹) E) 0 := by
  refine C67_chain N nP _ (fun p => hu p 0) hv ?_ ?_ γ E h h0
  · change (∑ p, ∑ m : Fin M, c1 (u p) m.succ)ᵀ = _
    simp only [transpose_sum, hu]
    rfl
  · let SSX : Matrix ((Fin D ⊕ κ) × K) ((Fin D ⊕ κ) × K) ℝ :=
      of fun a b => ∑ p, ∑ m, g1 (S p m) a.2 b.2 * chainXpXp (u p) (z p) m a.1 b.1
    let Bm : Matrix (Fin D) ((Fin D ⊕ κ) × K) ℝ := of fun d => g0 (b d)
    have e3 : (varySetup u v b S z).A_XpXp_A = Bm * SSX * Bmᵀ := by
      ext d e
      simp only [Matrix.mul_apply, Fintype.sum_prod_type, transpose_apply]
      rfl
    have e4 : SSXᵀ = SSX := by
      ext x y
      refine Finset.sum_congr rfl fun p _ => Finset.sum_congr rfl fun m _ => ?_
      rw [← hS p m, transpose_apply, hS p m, ← chainXpXp_symm (hu p) (hz p) m, transpose_apply, chainXpXp_symm (hu p) (hz p) m]
    rw [e3, transpose_mul, transpose_mul, transpose_transpose, e4, Matrix.mul_assoc]

theorem switchSetup_symm {Q : Type*} (β : P → Q) (v : P → GWIx (Fin D) → ℝ) (z : P → InpIx M κ → ℝ)
    (hz : ∀ p m k l, i1 (z p) m k l = i1 (z p) m l k) (u : P → GMCIx M D → ℝ) (hu : ∀ p n, (c1 (u p) n)ᵀ = c1 (u p) n)
    (Z : P → Fin M → K → ℝ) (b : Q → K → Fin D → GIx (Fin D ⊕ κ) → ℝ) :
    (switchSetup β u v b Z z).A_XpXp_Aᵀ = (switchSetup β u v b Z z).A_XpXp_A := by
  change (∑ p, ∑ k, _ * (∑ m, Z p m k • chainXpXp (u p) (z p) m) * _ᵀ)ᵀ = _
  simp only [transpose_sum, transpose_mul, transpose_transpose, transpose_smul, chainXpXp_symm (hu _) (hz _), ← Matrix.mul_assoc]
  rfl

/-- **C78** Switching dynamics: what `_compute_bound` returns second is the gradient of what it returns first. -/
theorem C78_switching_gradient (N nP : ℕ) {Q : Type*} (β : P → Q) (v : P → GWIx (Fin D) → ℝ) (hv : ∀ p, (gw2 (v p))ᵀ = gw2 (v p))
    (z : P → InpIx M κ → ℝ) (hz : ∀ p m k l, i1 (z p) m k l = i1 (z p) m l k) (u : P → GMCIx M D → ℝ)
    (hu : ∀ p n, (c1 (u p) n)ᵀ = c1 (u p) n) (Z : P → Fin M → K → ℝ) (b : Q → K → Fin D → GIx (Fin D ⊕ κ) → ℝ)
    (γ : ℝ → Matrix (Fin D) (Fin D) ℝ) (E : Matrix (Fin D) (Fin D) ℝ) (h : CurveDeriv γ E) (h0 : (γ 0).det ≠ 0) :
    HasDerivAt (fun t => chainBound N nP (switchSetup β u v b Z z) (γ t) (slogdet (γ t)))
      (frob (chainGrad N nP (switchSetup β u v b Z z) (γ 0) (γ 0)⁻¹) E) 0 := by
  refine C67_chain N nP _ (fun p => hu p 0) hv ?_ (switchSetup_symm β v z hz u hu Z b) γ E h h0
  change (∑ p, ∑ m : Fin M, c1 (u p) m.succ)ᵀ = _
  simp only [transpose_sum, hu]
  rfl

/-! ### the block of switching dynamics with `alpha` -/

/-- **C78** `RotateSwitchingMarkovChain` with `RotateGaussianARD` for the dynamics matrices: for every invertible rotation whose
columns do not sum to zero, the terms of the chains, of the dynamics matrices and of `alpha` in the lower bound after `rotate` are
the bound which the optimiser is given plus a constant. -/
theorem C78_switching_block [DecidableEq κ] {Q : Type*} [Fintype Q] {A₁ A₂ L : Type*} [Fintype A₁] [Fintype A₂] [Fintype L]
    [DecidableEq A₁] [DecidableEq A₂] [DecidableEq L] (β : P → Q) (v : P → GWIx (Fin D) → ℝ) (hv : ∀ p, (gw2 (v p))ᵀ = gw2 (v p))
    (z : P → InpIx M κ → ℝ) (s : P → ExpState (GMCIx M D)) (Z : P → Fin M → K → ℝ) (sB : Q × K → Fin D → ExpState (GIx (Fin D ⊕ κ)))
    (hs : ∀ b d, StateConsistent gaussianMoments gaussianCgf (sB b d)) (hd : ∀ b d, ((-2 : ℝ) • g1 (sB b d).phi).PosDef)
    (pre : Bool) (πB : Q × K → A₁) (πL : Fin D → A₂) (κ' : Fin D ⊕ κ → L) {rB rL rK : ℕ}
    (hr : ∀ a, (Finset.univ.filter fun p : (Q × K) × Fin D => (πB p.1, πL p.2) = a).card = rB * rL)
    (hrK : ∀ k, (Finset.univ.filter fun i => κ' i = k).card = rK) (a : A₁ × A₂ → L → ℝ) (a0 b0 : ℝ)
    (ha0 : 0 < a0) (hb0 : 0 < b0) (m : Q × K → Fin D → Fin D ⊕ κ → Fin 2 → ℝ)
    (hm : ∀ b l i, m b l i 0 ^ 2 ≤ m b l i 1) (t : A₁ × A₂ → L → Fin 2 → ℝ) (ht : ∀ a k, 0 < t a k 0) :
    ∃ C, ∀ R : Matrix (Fin D) (Fin D) ℝ, R.det ≠ 0 → (∀ d, colSum R d ≠ 0) →
      let sB' := chainRotateA R R⁻¹ (slogdet R) sB
      let alpha := alphaPhi (fun p : (Q × K) × Fin D => (πB p.1, πL p.2)) κ' (fun _ _ => a0) (fun _ _ => b0) (fun p => m p.1 p.2)
        fun p => (sB' p).u
      ∑ p, chainTerm (v p) (unitDyn fun m d => switchRow (fun k => (sB' ((β p, k), d)).u) (Z p m)) (z p)
          (gmcRotate R (some R⁻¹) (some (slogdet R)) (s p))
        + (∑ p : (Q × K) × Fin D, ardTerm (fun i => wrap0 (m p.1 p.2 i.1) (gammaMoments (alpha (πB p.1, πL p.2) (κ' i.1))) i.2) (sB' p)
          + ∑ q, ∑ k, gammaTerm (gammaPriorFixed a0) (gammaFixed b0) (alpha q k))
        = ((chainBlock (M + 1) (Fintype.card P) (switchSetup β (fun p => (s p).u) v (fun q k d => (sB (q, k) d).u) Z z)
            (ardBlockQ pre (Fintype.card (Q × K)) (Fintype.card (Fin D)) rB rL rK πB πL κ' a a0 b0 (ardSetupQ πB πL (fun b l => (sB b l).u)
              fun b l i => wrap0 (m b l i.1) (t (πB b, πL l) (κ' i.1)) i.2))).bound R (slogdet R) R⁻¹).1 + C := by
  obtain ⟨C1, h1⟩ := C78_switching β v hv z s Z sB hs hd
  obtain ⟨C2, h2⟩ := C66_ard_plates pre πB πL κ' hr hrK a (fun _ _ => a0) (fun _ _ => b0) (fun _ _ => ha0) (fun _ _ => hb0) m hm t ht sB hs hd
  refine ⟨C1 + C2, fun R hR hQ => ?_⟩
  have hW' : (withInputs (κ := κ) R⁻¹ᵀ).det ≠ 0 := by
    rw [withInputs_det]
    exact (C46_opposite_args R hR).1
  have el : slogdet (withInputs (κ := κ) R⁻¹ᵀ) = -slogdet R := by
    unfold slogdet
    rw [withInputs_det, det_transpose, det_nonsing_inv, Ring.inverse_eq_inv', Real.log_inv]
  intro sB' alpha
  have e : sB' = rotatedRows (withInputs R⁻¹ᵀ) R sB := chainRotateA_eq hR sB
  have k1 := h1 R hR hQ
  have k2 := h2 (withInputs R⁻¹ᵀ) R hW' hQ
  rw [el] at k2
  change _ = chainBound (M + 1) (Fintype.card P) _ R (slogdet R) + ardBoundUpdateQ (Fintype.card (Q × K)) (rB * rL) rK κ' a (fun _ _ => a0)
    (fun _ _ => b0) _ (withInputs R⁻¹ᵀ) (-slogdet R) R + (C1 + C2)
  rw [← e] at k2
  refine (congrArg₂ (· + ·) k1 k2).trans ?_
  ring

end

/-! ### several rotators -/

section
variable {ι : Type*} [Fintype ι] [DecidableEq ι]

omit [Fintype ι] [DecidableEq ι] in
theorem multipleBlock_bound (bs : List (RotationBlock ι)) (R : Matrix ι ι ℝ) (l : ℝ) (V : Matrix ι ι ℝ) :
    (multipleBlock bs).bound R l V = ((bs.map fun b => (b.bound R l V).1).sum, (bs.map fun b => (b.bound R l V).2).sum) := by
  have key : ∀ r : ℝ × Matrix ι ι ℝ, bs.foldl (fun r b => let (x, dx) := b.bound R l V; (r.1 + x, r.2 + dx)) r
      = (r.1 + (bs.map fun b => (b.bound R l V).1).sum, r.2 + (bs.map fun b => (b.bound R l V).2).sum) := by
    induction bs with
    | nil => intro r; simp
    | cons b bs ih =>
      intro r
      rw [List.foldl_cons, ih]
      simp only [List.map_cons, List.sum_cons, add_assoc]
  refine (key (0, 0)).trans ?_
  rw [zero_add, zero_add]

/-- **C78** `RotateMultiple`: when each rotator's bound is its terms of the lower bound up to a constant, at the rotations of a set
`T`, then the bound of all is the sum of their terms up to a constant. -/
theorem C78_multiple (bs : List (RotationBlock ι × (Matrix ι ι ℝ → ℝ))) (T : Set (Matrix ι ι ℝ))
    (h : ∀ b ∈ bs, ∃ C, ∀ R ∈ T, b.2 R = (b.1.bound R (slogdet R) R⁻¹).1 + C) :
    ∃ C, ∀ R ∈ T, (bs.map fun b => b.2 R).sum = ((multipleBlock (bs.map Prod.fst)).bound R (slogdet R) R⁻¹).1 + C := by
  simp only [multipleBlock_bound, List.map_map]
  induction bs with
  | nil => exact ⟨0, fun R _ => by simp⟩
  | cons b bs ih =>
    obtain ⟨C1, h1⟩ := h b List.mem_cons_self
    obtain ⟨C2, h2⟩ := ih fun c hc => h c (List.mem_cons_of_mem b hc)
    refine ⟨C1 + C2, fun R hR => ?_⟩
    simp only [List.map_cons, List.sum_cons, h1 R hR, h2 R hR, Function.comp]
    ring

/-- **C78** `RotateMultiple`: the gradient is that of the sum of the bounds. -/
theorem C78_multiple_gradient (bs : List (RotationBlock ι)) (R : Matrix ι ι ℝ) (h : ∀ b ∈ bs, BlockGradientAt b R) :
    BlockGradientAt (multipleBlock bs) R := by
  intro γ E hγ e0
  simp only [multipleBlock_bound]
  induction bs with
  | nil =>
    simp only [List.map_nil, List.sum_nil]
    have : frob (0 : Matrix ι ι ℝ) E = 0 := by simp [frob]
    rw [this]
    exact hasDerivAt_const 0 (0 : ℝ)
  | cons b bs ih =>
    simp only [List.map_cons, List.sum_cons, frob_add_left]
    exact (h b List.mem_cons_self γ E hγ e0).add (ih fun c hc => h c (List.mem_cons_of_mem b hc))

end

/-! ### constructors -/

/-- the dynamics must be wrapped with the innovation noise -/
theorem rotDynamics_own {X : RotNode} (hX : X.OwnDynamics) (ht : ∀ q ∈ X.parents, q.Typed) : rotDynamics X = .error .assertionError := by
  obtain ⟨mu, Lambda, B, S, v, h, hL⟩ := hX.parents
  have hc : (Lambda.cls == RotCls.wrapToGaussianGamma) = false := by
    rw [beq_eq_false_iff_ne]
    intro hc
    have := ht Lambda (by rw [h]; simp) hc
    rw [hL] at this
    exact absurd this (by decide)
  have hp : rotParent 1 X = .ok Lambda := by
    unfold rotParent
    rw [h]
    rfl
  unfold rotDynamics
  rw [hp]
  change (pyAssert (Lambda.cls == RotCls.wrapToGaussianGamma) >>= fun _ => _) = _
  rw [hc]
  rfl

/-- **C78 finding** The rotators accept no chain which has its varying or switching dynamics as parents, that is no
`VaryingGaussianMarkovChain` or `SwitchingGaussianMarkovChain`, although these are the nodes they are documented for. -/
theorem C78_own_dynamics_raises (X B S : RotNode) (hX : X.OwnDynamics) (ht : ∀ q ∈ X.parents, q.Typed) :
    (∃ e, varyInit X B S = .error e) ∧ (varyChecks B S = .ok () → varyInit X B S = .error .assertionError) ∧
      ∃ e, switchInit X B S = .error e := by
  have h := rotDynamics_own hX ht
  refine ⟨?_, ?_, ?_⟩
  · unfold varyInit
    rw [h]
    cases varyChecks B S with
    | error e => exact ⟨e, rfl⟩
    | ok u => exact ⟨_, rfl⟩
  · intro hc
    unfold varyInit
    rw [h, hc]
    rfl
  · unfold switchInit
    rw [h]
    split
    · rename_i D K _ _
      cases switchChecks K D B S with
      | error e => exact ⟨e, rfl⟩
      | ok u => exact ⟨_, rfl⟩
    · exact ⟨_, rfl⟩
    · exact ⟨_, rfl⟩

/-- **C78** The chains they do accept: those with the innovation noise wrapped with a Gaussian dynamics, which is found. -/
theorem C78_wrapped_dynamics (c : RotCls) (mo : RotMoments) (p d : List ℕ) (init : RotNode) (rest : List RotNode) (w : RotNode)
    (hw : w.cls = .wrapToGaussianGamma) (g : RotNode) (hg : w.parents.head? = some g) (hgc : g.cls = .gaussianToGaussianGamma)
    (A : RotNode) (hA : g.parents.head? = some A) (hAm : A.moments = .gaussian) (B S : RotNode) (hc : varyChecks B S = .ok ()) :
    varyInit (.mk c mo p d (init :: w :: rest)) B S = .ok A := by
  have h1 : rotParent 1 (.mk c mo p d (init :: w :: rest)) = .ok w := rfl
  have h2 : rotParent 0 w = .ok g := by
    unfold rotParent
    rw [← List.head?_eq_getElem?, hg]
  have h3 : rotParent 0 g = .ok A := by
    unfold rotParent
    rw [← List.head?_eq_getElem?, hA]
  unfold varyInit rotDynamics
  rw [hc, h1]
  change (pyAssert (w.cls == _) >>= fun _ => rotParent 0 w >>= fun g => _) = _
  rw [hw, h2]
  change (pyAssert (g.cls == _) >>= fun _ => rotParent 0 g >>= fun A => _) = _
  rw [hgc, h3]
  change (pyAssert (A.moments == _) >>= fun _ => Except.ok A) = _
  rw [hAm]
  rfl

/-- **C78 finding** The number of transitions is not checked: the outcome of `RotateSwitchingMarkovChain.__init__` is the same for any
plates of `Z` as long as there are some, and without plates it raises. -/
theorem C78_switching_plates_refuted (X B : RotNode) (c : RotCls) (mo : RotMoments) (K : ℕ) (q : List RotNode) :
    (∀ n n' pl pl', switchInit X B (.mk c mo (n :: pl) [K] q) = switchInit X B (.mk c mo (n' :: pl') [K] q)) ∧
      (X.dim.length = 2 → switchInit X B (.mk c mo [] [K] q) = .error .indexError) := by
  refine ⟨fun n n' pl pl' => rfl, fun h => ?_⟩
  obtain ⟨N, D, e⟩ := List.length_eq_two.mp h
  unfold switchInit
  rw [e]
  rfl

/-! ### examples -/

section

/-- a row of `B` with two weights, four variables and an input: unit precision and different means -/
noncomputable def exWeighted (d : Fin 2) : ExpState (GIx ((Fin 2 ⊕ Fin 1) × Fin 2)) :=
  let phi := mkG (fun x => (d : ℝ) + 1 + x.2) ((-0.5 : ℝ) • 1)
  { phi := phi, u := gaussianMoments phi, g := gaussianCgf phi }

theorem exWeighted_posDef (d : Fin 2) : ((-2 : ℝ) • g1 (exWeighted d).phi).PosDef := by
  have e : (-2 : ℝ) • g1 (exWeighted d).phi = 1 := by
    change (-2 : ℝ) • ((-0.5 : ℝ) • (1 : Matrix ((Fin 2 ⊕ Fin 1) × Fin 2) _ ℝ)) = 1
    rw [smul_smul]
    norm_num
  rw [e]
  exact PosDef.one

/-- weights `(2, 3)` with unit variances -/
noncomputable def exWeights : GIx (Fin 2) → ℝ := mkG ![2, 3] !![5, 6; 6, 10]

theorem exWeights_symm : (g1 exWeights)ᵀ = g1 exWeights := by
  change (!![5, 6; 6, 10] : Matrix (Fin 2) (Fin 2) ℝ)ᵀ = !![5, 6; 6, 10]
  ext i j
  fin_cases i <;> fin_cases j <;> rfl

/-- the terms of a chain with two weighted dynamics matrices and an input change with the shear as the bound says -/
example (s : ExpState (GMCIx 1 2)) :
    let term := fun R : Matrix (Fin 2) (Fin 2) ℝ => chainTerm exInitial
      (unitDyn fun _ d => varyRow (varyRotateB R R⁻¹ (slogdet R) exWeighted d).u exWeights) exInput (gmcRotate R none none s)
    let S := varySetup (fun _ : Unit => s.u) (fun _ => exInitial) (fun d => (exWeighted d).u) (fun _ _ => exWeights) fun _ => exInput
    term exShear - term 1 = chainBound 2 1 S exShear (slogdet exShear) - chainBound 2 1 S 1 (slogdet (1 : Matrix (Fin 2) (Fin 2) ℝ)) := by
  intro term S
  obtain ⟨C, h⟩ := C78_varying (P := Unit) (fun _ => exInitial) (fun _ => exInitial_symm) (fun _ => exInput) (fun _ => s)
    (fun _ _ => exWeights) (fun _ _ => exWeights_symm) exWeighted (fun _ => ⟨rfl, rfl⟩) exWeighted_posDef
  have h1 := h exShear exShear_det exShear_colSum
  have h2 := h 1 (by rw [det_one]; exact one_ne_zero) colSum_one
  rw [Fintype.sum_unique] at h1 h2
  change term exShear = chainBound 2 1 S exShear (slogdet exShear) + C at h1
  change term 1 = chainBound 2 1 S 1 (slogdet (1 : Matrix (Fin 2) (Fin 2) ℝ)) + C at h2
  rw [h1, h2]
  ring

/-- two dynamics matrices, the second with probability three quarters -/
example (s : ExpState (GMCIx 1 2)) :
    let Z : Fin 2 → ℝ := ![0.25, 0.75]
    let term := fun R : Matrix (Fin 2) (Fin 2) ℝ => chainTerm exInitial
      (unitDyn fun _ d => switchRow (fun k => (chainRotateA R R⁻¹ (slogdet R) (fun _ : Unit × Fin 2 => exRow) (((), k), d)).u) Z) exInput
      (gmcRotate R none none s)
    let S := switchSetup (fun _ : Unit => ()) (fun _ => s.u) (fun _ => exInitial) (fun _ _ d => (exRow d).u) (fun _ _ => Z) fun _ => exInput
    term exShear - term 1 = chainBound 2 1 S exShear (slogdet exShear) - chainBound 2 1 S 1 (slogdet (1 : Matrix (Fin 2) (Fin 2) ℝ)) := by
  intro Z term S
  obtain ⟨C, h⟩ := C78_switching (P := Unit) (fun _ => ()) (fun _ => exInitial) (fun _ => exInitial_symm) (fun _ => exInput) (fun _ => s)
    (fun _ _ => Z) (fun _ => exRow) (fun _ => exRow_consistent) fun _ => exRow_posDef
  have h1 := h exShear exShear_det exShear_colSum
  have h2 := h 1 (by rw [det_one]; exact one_ne_zero) colSum_one
  rw [Fintype.sum_unique] at h1 h2
  change term exShear = chainBound 2 1 S exShear (slogdet exShear) + C at h1
  change term 1 = chainBound 2 1 S 1 (slogdet (1 : Matrix (Fin 2) (Fin 2) ℝ)) + C at h2
  rw [h1, h2]
  ring

/-- the gradients at the shear -/
example (E : Matrix (Fin 2) (Fin 2) ℝ) :
    let S := varySetup (fun _ : Unit => exStates) (fun _ => exInitial) (fun d => (exWeighted d).u) (fun _ _ => exWeights) fun _ => exInput
    HasDerivAt (fun t : ℝ => chainBound 2 1 S (exShear + t • E) (slogdet (exShear + t • E))) (frob (chainGrad 2 1 S exShear exShear⁻¹) E) 0 := by
  intro S
  have e : exShear + (0 : ℝ) • E = exShear := by rw [zero_smul, add_zero]
  have := C78_varying_gradient (P := Unit) 2 1 (fun _ => exInitial) (fun _ => exInitial_symm) (fun _ => exInput) (fun _ _ _ _ => rfl)
    (fun _ => exStates) (fun _ => exStates_symm) (fun _ _ => exWeights) (fun _ _ => exWeights_symm) (fun d => (exWeighted d).u)
    (fun t => exShear + t • E) E (curve_line exShear E) (by rw [e]; exact exShear_det)
  rwa [e] at this

example (E : Matrix (Fin 2) (Fin 2) ℝ) :
    let S := switchSetup (fun _ : Unit => ()) (fun _ => exStates) (fun _ => exInitial) (fun _ _ d => (exRow d).u)
      (fun _ _ => (![0.25, 0.75] : Fin 2 → ℝ)) fun _ => exInput
    HasDerivAt (fun t : ℝ => chainBound 2 1 S (exShear + t • E) (slogdet (exShear + t • E))) (frob (chainGrad 2 1 S exShear exShear⁻¹) E) 0 := by
  intro S
  have e : exShear + (0 : ℝ) • E = exShear := by rw [zero_smul, add_zero]
  have := C78_switching_gradient (P := Unit) 2 1 (fun _ => ()) (fun _ => exInitial) (fun _ => exInitial_symm) (fun _ => exInput)
    (fun _ _ _ _ => rfl) (fun _ => exStates) (fun _ => exStates_symm) (fun _ _ => (![0.25, 0.75] : Fin 2 → ℝ))
    (fun _ _ d => (exRow d).u) (fun t => exShear + t • E) E (curve_line exShear E) (by rw [e]; exact exShear_det)
  rwa [e] at this

/-- two dynamics matrices with `alpha`, one for each column and common to the rows and the matrices -/
example (s : ExpState (GMCIx 1 2)) :
    let sB' := fun R => chainRotateA R R⁻¹ (slogdet R) (fun _ : Unit × Fin 2 => exRow)
    let alpha := fun R => alphaPhi (fun p : (Unit × Fin 2) × Fin 2 => ((), ())) (id : Fin 2 ⊕ Fin 1 → _) (fun _ _ => 2) (fun _ _ => 3)
      (fun _ _ => ![0, 0]) fun p => (sB' R p).u
    let total := fun R => chainTerm exInitial (unitDyn fun _ d => switchRow (fun k => (sB' R (((), k), d)).u) ![0.25, 0.75]) exInput
        (gmcRotate R (some R⁻¹) (some (slogdet R)) s)
      + ((∑ p : (Unit × Fin 2) × Fin 2, ardTerm (fun i => wrap0 ![0, 0] (gammaMoments (alpha R ((), ()) i.1)) i.2) (sB' R p))
        + ∑ q, ∑ k, gammaTerm (gammaPriorFixed 2) (gammaFixed 3) (alpha R q k))
    let b := chainBlock 2 1 (switchSetup (fun _ : Unit => ()) (fun _ => s.u) (fun _ => exInitial) (fun _ _ d => (exRow d).u)
        (fun _ _ => ![0.25, 0.75]) fun _ => exInput)
      (ardBlockQ true 2 2 2 2 1 (fun _ : Unit × Fin 2 => ()) (fun _ : Fin 2 => ()) id (fun _ _ => 3) 2 3
        (ardSetupQ (fun _ => ()) (fun _ => ()) (fun _ l => (exRow l).u) fun _ _ i => wrap0 ![0, 0] ![7, 0] i.2))
    total exShear - total 1 = (b.bound exShear (slogdet exShear) exShear⁻¹).1 - (b.bound 1 (slogdet (1 : Matrix (Fin 2) (Fin 2) ℝ)) 1⁻¹).1 := by
  intro sB' alpha total b
  obtain ⟨C, h⟩ := C78_switching_block (P := Unit) (Q := Unit) (K := Fin 2) (fun _ => ()) (fun _ => exInitial) (fun _ => exInitial_symm)
    (fun _ => exInput) (fun _ => s) (fun _ _ => ![0.25, 0.75]) (fun _ => exRow) (fun _ => exRow_consistent) (fun _ => exRow_posDef) true
    (fun _ => ()) (fun _ => ()) (id : Fin 2 ⊕ Fin 1 → _) (rB := 2) (rL := 2) (rK := 1) (by decide) (by decide) (fun _ _ => 3) 2 3
    (by norm_num) (by norm_num) (fun _ _ _ => ![0, 0]) (by simp) (fun _ _ => ![7, 0]) (by simp)
  have h1 := h exShear exShear_det exShear_colSum
  have h2 := h 1 (by rw [det_one]; exact one_ne_zero) colSum_one
  simp only [Fintype.sum_unique (fun p : Unit => chainTerm _ _ _ _)] at h1 h2
  change total exShear = (b.bound exShear (slogdet exShear) exShear⁻¹).1 + C at h1
  change total 1 = (b.bound 1 (slogdet (1 : Matrix (Fin 2) (Fin 2) ℝ)) 1⁻¹).1 + C at h2
  rw [h1, h2]
  ring

/-- two chains which share a rotation -/
example : BlockGradientAt (multipleBlock [exChainBlock true, exChainBlock false]) exShear :=
  C78_multiple_gradient _ _ (by
    intro b hb
    rcases List.mem_pair.mp hb with rfl | rfl
    · exact exChainBlock_gradient true
    · exact exChainBlock_gradient false)

example : ∃ C, ∀ R ∈ (Set.univ : Set (Matrix (Fin 2) (Fin 2) ℝ)),
    ([((⟨fun _ l _ => (2 * l, 0)⟩ : RotationBlock (Fin 2)), fun R => 2 * slogdet R + 7), (⟨fun _ l _ => (l, 0)⟩, fun R => slogdet R - 1)].map
      fun b => b.2 R).sum = ((multipleBlock [⟨fun _ l _ => (2 * l, 0)⟩, ⟨fun _ l _ => (l, 0)⟩]).bound R (slogdet R) R⁻¹).1 + C :=
  C78_multiple [(⟨fun _ l _ => (2 * l, 0)⟩, fun R => 2 * slogdet R + 7), (⟨fun _ l _ => (l, 0)⟩, fun R => slogdet R - 1)] Set.univ (by
    intro b hb
    rcases List.mem_pair.mp hb with rfl | rfl
    · exact ⟨7, fun R _ => rfl⟩
    · exact ⟨-1, fun R _ => rfl⟩)

/-- leaves of the examples -/
def exLeaf (m : RotMoments) (plates dim : List ℕ) : RotNode := .mk .other m plates dim []

/-- a chain of four states in two dimensions with varying dynamics of three matrices -/
def exOwn : RotNode := .mk .other .chain [] [4, 2]
  [exLeaf .gaussian [] [2], exLeaf .wishart [] [2, 2], exLeaf .gaussian [2] [2, 3], exLeaf .gaussian [3] [3], exLeaf .gamma [2] []]

/-- the same as an ordinary chain whose dynamics is computed by `SumMultiply` -/
def exWrapped : RotNode := .mk .gaussianMarkovChain .chain [] [4, 2]
  [exLeaf .gaussianWishart [] [2], .mk .wrapToGaussianGamma .gaussianGamma [3, 2] [2]
    [.mk .gaussianToGaussianGamma .gaussianGamma [3, 2] [2] [exLeaf .gaussian [3, 2] [2]], exLeaf .gamma [2] []]]

theorem exOwn_own : exOwn.OwnDynamics := ⟨⟨_, _, _, _, _, rfl, rfl⟩⟩

theorem exOwn_typed : ∀ q ∈ exOwn.parents, q.Typed := by
  intro q hq h
  simp only [exOwn, RotNode.parents, List.mem_cons, List.not_mem_nil, or_false] at hq
  rcases hq with rfl | rfl | rfl | rfl | rfl <;> exact absurd h (by decide)

example : varyInit exOwn (exLeaf .gaussian [1, 2] [2, 3]) (exLeaf .gaussian [3, 1] [3]) = .error .assertionError :=
  (C78_own_dynamics_raises exOwn _ _ exOwn_own exOwn_typed).2.1 rfl

example : varyInit exWrapped (exLeaf .gaussian [1, 2] [2, 3]) (exLeaf .gaussian [3, 1] [3]) = .ok (exLeaf .gaussian [3, 2] [2]) :=
  C78_wrapped_dynamics _ _ _ _ _ _ _ rfl _ rfl rfl _ rfl rfl _ _ rfl

/-- five transitions are accepted for four states -/
example : switchInit exWrapped (exLeaf .gaussian [3, 2] [2]) (exLeaf .categorical [5] [3]) = .ok (exLeaf .gaussian [3, 2] [2]) :=
  ((C78_switching_plates_refuted exWrapped (exLeaf .gaussian [3, 2] [2]) .other .categorical 3 []).1 5 3 [] []).trans rfl

end

end Verif
