import Verif.Model.TransformChain
import Verif.Props.RotationGradient

/-!
# C66: the rotation of Gaussian Markov chains
-/

namespace Verif
open Spec Matrix

/-! ### the rotation of the plates -/

section
variable {L ι : Type*} [Fintype L] [Fintype ι] [DecidableEq ι]

theorem gaussianRotate_id : gaussianRotate (ι := ι) 1 none none = id := by
  funext t
  have := gaussianRotate_one t
  unfold gaussianRotate at *
  simp only [Option.getD_some, Option.getD_none, inv_one, slogdet, det_one, Real.log_one, id] at *
  exact this

/-- negative entropy of a Gaussian -/
theorem gaussian_entropy_eq {s : ExpState (GIx ι)} (hs : StateConsistent gaussianMoments gaussianCgf s)
    (hd : ((-2 : ℝ) • g1 s.phi).PosDef) :
    s.g + s.phi ⬝ᵥ s.u = 0.5 * Real.log ((-2 : ℝ) • g1 s.phi).det - 0.5 * Fintype.card ι := by
  obtain ⟨hu, hg⟩ := hs
  have hdet : ((-2 : ℝ) • g1 s.phi).det ≠ 0 := hd.det_pos.ne'
  rw [hu, hg]
  conv_lhs => rw [← mkG_eta s.phi]
  unfold gaussianMoments gaussianCgf
  simp only [mkG_g0, mkG_g1]
  generalize hA : (-2 : ℝ) • g1 s.phi = A at *
  have e1 : g1 s.phi = (-0.5 : ℝ) • A := by
    rw [← hA, smul_smul]
    norm_num
  rw [mkG_dotProduct, e1]
  have hAt : Aᵀ = A := by
    have := hd.isHermitian
    rwa [IsHermitian, conjTranspose_eq_transpose_of_trivial] at this
  generalize hμ : A⁻¹ *ᵥ g0 s.phi = μ
  have hμ' : A *ᵥ μ = g0 s.phi := by rw [← hμ, mulVec_mulVec, mul_nonsing_inv _ hdet.isUnit, one_mulVec]
  have e2 : frob ((-0.5 : ℝ) • A) (A⁻¹ + vecMulVec μ μ) = -0.5 * (Fintype.card ι + μ ⬝ᵥ g0 s.phi) := by
    rw [frob_eq_trace, transpose_smul, hAt, Matrix.mul_add, Matrix.trace_add, Matrix.smul_mul, Matrix.smul_mul, trace_smul,
      trace_smul, mul_nonsing_inv _ hdet.isUnit, trace_one, mul_vecMulVec, hμ', trace_vecMulVec, smul_eq_mul, smul_eq_mul,
      dotProduct_comm]
    ring
  rw [mkG_g0, mkG_g1, e2, dotProduct_comm]
  ring

/-- the moments after the rotation of the plates -/
theorem rotatePlates_moments (Q : Matrix L L ℝ) (hQ : ∀ l, colSum Q l ≠ 0) (s : L → ExpState (GIx ι))
    (hs : ∀ l, StateConsistent gaussianMoments gaussianCgf (s l)) (hd : ∀ l, ((-2 : ℝ) • g1 (s l).phi).PosDef) (l : L) :
    g0 (ardRotatePlates Q s l).u = (fun j => ∑ k, Q l k * g0 (s k).u j) ∧
    g1 (ardRotatePlates Q s l).u = colSum Q l ^ 2 • (g1 (s l).u - vecMulVec (g0 (s l).u) (g0 (s l).u))
        + vecMulVec (fun j => ∑ k, Q l k * g0 (s k).u j) (fun j => ∑ k, Q l k * g0 (s k).u j) ∧
    ((-2 : ℝ) • g1 (ardRotatePlates Q s l).phi).PosDef ∧
    StateConsistent gaussianMoments gaussianCgf (ardRotatePlates Q s l) ∧
    (ardRotatePlates Q s l).g + (ardRotatePlates Q s l).phi ⬝ᵥ (ardRotatePlates Q s l).u
      = (s l).g + (s l).phi ⬝ᵥ (s l).u - Fintype.card ι * Real.log |colSum Q l| := by
  have hc := hQ l
  have hpos : 0 < colSum Q l ^ (-2 : ℤ) := by
    rw [_root_.zpow_neg]
    exact inv_pos.2 (by positivity)
  have ephi : g1 (ardRotatePlates Q s l).phi = (colSum Q l ^ (-2 : ℤ)) • g1 (s l).phi := rfl
  have ephi0 : g0 (ardRotatePlates Q s l).phi
      = (-2 : ℝ) • (((colSum Q l ^ (-2 : ℤ)) • g1 (s l).phi) *ᵥ fun j => ∑ k, Q l k * g0 (s k).u j) := rfl
  have eA : (-2 : ℝ) • g1 (ardRotatePlates Q s l).phi = (colSum Q l ^ (-2 : ℤ)) • ((-2 : ℝ) • g1 (s l).phi) := by
    rw [ephi, smul_comm]
  have hP : ((-2 : ℝ) • g1 (ardRotatePlates Q s l).phi).PosDef := by
    rw [eA]
    exact (hd l).smul hpos
  have hC : StateConsistent gaussianMoments gaussianCgf (ardRotatePlates Q s l) := ⟨rfl, rfl⟩
  have hdet : ((-2 : ℝ) • g1 (s l).phi).det ≠ 0 := (hd l).det_pos.ne'
  have einv : ((-2 : ℝ) • g1 (ardRotatePlates Q s l).phi)⁻¹ = colSum Q l ^ 2 • ((-2 : ℝ) • g1 (s l).phi)⁻¹ := by
    rw [eA]
    refine inv_eq_left_inv ?_
    rw [Matrix.smul_mul, Matrix.mul_smul, smul_smul, nonsing_inv_mul _ hdet.isUnit]
    have : colSum Q l ^ 2 * colSum Q l ^ (-2 : ℤ) = 1 := by
      rw [_root_.zpow_neg]
      exact mul_inv_cancel₀ (pow_ne_zero 2 hc)
    rw [this, one_smul]
  have emu : ((-2 : ℝ) • g1 (ardRotatePlates Q s l).phi)⁻¹ *ᵥ g0 (ardRotatePlates Q s l).phi
      = fun j => ∑ k, Q l k * g0 (s k).u j := by
    rw [ephi0, ← smul_mulVec, ← ephi, mulVec_mulVec, nonsing_inv_mul _ hP.det_pos.ne'.isUnit, one_mulVec]
  have ecov : ((-2 : ℝ) • g1 (s l).phi)⁻¹ = g1 (s l).u - vecMulVec (g0 (s l).u) (g0 (s l).u) := by
    rw [(hs l).1]
    unfold gaussianMoments
    simp only [mkG_g0, mkG_g1, add_sub_cancel_right]
  refine ⟨emu, ?_, hP, hC, ?_⟩
  · change ((-2 : ℝ) • g1 (ardRotatePlates Q s l).phi)⁻¹ + vecMulVec (((-2 : ℝ) • g1 (ardRotatePlates Q s l).phi)⁻¹ *ᵥ
      g0 (ardRotatePlates Q s l).phi) (((-2 : ℝ) • g1 (ardRotatePlates Q s l).phi)⁻¹ *ᵥ g0 (ardRotatePlates Q s l).phi) = _
    rw [emu, einv, ecov]
  · rw [gaussian_entropy_eq hC hP, gaussian_entropy_eq (hs l) (hd l), eA, det_smul,
      Real.log_mul (pow_ne_zero _ hpos.ne') hdet, Real.log_pow, Real.log_zpow, Real.log_abs]
    push_cast
    ring

end

/-! ### the sums -/

section
variable {B L A₁ A₂ ι K : Type*} [Fintype B] [Fintype L] [Fintype A₁] [Fintype A₂] [Fintype ι] [Fintype K]
  [DecidableEq A₁] [DecidableEq A₂] [DecidableEq K] [DecidableEq ι]

theorem sum_precompute {A : Type*} (F : Finset A) (f g : A → L → ℝ) (c d : L → ℝ) :
    ∑ k, ∑ l, (∑ b ∈ F, f b k * g b l) * c k * d l = ∑ b ∈ F, (∑ k, c k * f b k) * ∑ l, d l * g b l := by
  rw [Finset.sum_comm]
  simp only [Finset.sum_mul, Finset.mul_sum]
  rw [Finset.sum_comm (s := F)]
  refine Finset.sum_congr rfl fun k _ => ?_
  rw [Finset.sum_comm (s := F)]
  refine Finset.sum_congr rfl fun l _ => ?_
  exact Finset.sum_congr rfl fun b _ => by ring

omit [Fintype A₁] [Fintype A₂] in
theorem sum_filter_pair (πB : B → A₁) (πL : L → A₂) (a : A₁ × A₂) (f : B × L → ℝ) :
    ∑ p with (πB p.1, πL p.2) = a, f p = ∑ b with πB b = a.1, ∑ l with πL l = a.2, f (b, l) := by
  rw [← Finset.sum_product']
  refine Finset.sum_congr ?_ fun _ _ => rfl
  ext p
  simp [Prod.ext_iff]

/-- both ways to compute the sums give the same -/
theorem ardSumsQ_precompute (πB : B → A₁) (πL : L → A₂) (u : B → L → GIx ι → ℝ) (v : B → L → ι × Fin 4 → ℝ) (Q : Matrix L L ℝ)
    (p : Bool) : ardSumsQ p πB πL (ardSetupQ πB πL u v) Q = ardSumsQ false πB πL (ardSetupQ πB πL u v) Q := by
  cases p
  · rfl
  unfold ardSumsQ
  simp only [if_true, Bool.false_eq_true, if_false]
  congr 1
  · funext a
    rw [Finset.sum_add_distrib, add_comm, Finset.sum_comm (s := Finset.univ.filter fun b => πB b = a.1)]
    congr 1
    refine Finset.sum_congr rfl fun i _ => ?_
    ext c d
    rw [Matrix.sum_apply]
    exact (sum_precompute _ (fun b k => g0 (u b k) c) (fun b l => g0 (u b l) d) (Q i) (Q i))
  · funext a
    rw [Finset.sum_comm (s := Finset.univ.filter fun b => πB b = a.1)]
    refine Finset.sum_congr rfl fun i _ => ?_
    ext c d
    rw [Matrix.sum_apply]
    change ∑ k, (∑ b with πB b = a.1, _ * _) * _ = _
    simp only [Finset.sum_mul]
    rw [Finset.sum_comm]
    refine Finset.sum_congr rfl fun b _ => ?_
    rw [vecMulVec_apply, Finset.sum_mul]
    refine Finset.sum_congr rfl fun k _ => ?_
    change g0 (u b k) c * (v b i (d, 0) / v b i (d, 2)) * Q i k = Q i k * g0 (u b k) c * (v b i (d, 0) / v b i (d, 2))
    ring

/-- the state after `RotateGaussianARD.rotate`, lines 449-465 -/
noncomputable def Spec.rotatedRows (R : Matrix ι ι ℝ) (Q : Matrix L L ℝ) (s : B → L → ExpState (GIx ι)) (p : B × L) : ExpState (GIx ι) :=
  ardRotatePlates Q (fun l => gaussianRotate R none none (s p.1 l)) p.2

omit [Fintype B] in
/-- the moments of the rows after the rotation -/
theorem rotatedRows_moments (s : B → L → ExpState (GIx ι)) (hs : ∀ b l, StateConsistent gaussianMoments gaussianCgf (s b l))
    (hd : ∀ b l, ((-2 : ℝ) • g1 (s b l).phi).PosDef) (R : Matrix ι ι ℝ) (hR : R.det ≠ 0) (Q : Matrix L L ℝ) (hQ : ∀ l, colSum Q l ≠ 0) :
    (∀ b l, g0 (rotatedRows R Q s (b, l)).u = R *ᵥ fun j => ∑ k, Q l k * g0 (s b k).u j) ∧
    ∀ b l, g1 (rotatedRows R Q s (b, l)).u = R * (colSum Q l ^ 2 • (g1 (s b l).u - vecMulVec (g0 (s b l).u) (g0 (s b l).u))
      + vecMulVec (fun j => ∑ k, Q l k * g0 (s b k).u j) fun j => ∑ k, Q l k * g0 (s b k).u j) * Rᵀ := by
  have hm := fun b l => rotatePlates_moments Q hQ (fun l => gaussianRotate R none none (s b l))
    (fun l => (C46_gaussian_rotate R hR none none ⟨by simp, by simp⟩ (s b l) (hs b l) (hd b l)).1)
    (fun l => (C46_gaussian_rotate R hR none none ⟨by simp, by simp⟩ (s b l) (hs b l) (hd b l)).2) l
  have e0 : ∀ b l, g0 (rotatedRows R Q s (b, l)).u = R *ᵥ fun j => ∑ k, Q l k * g0 (s b k).u j := by
    intro b l
    refine (hm b l).1.trans ?_
    funext j
    change ∑ k, Q l k * (R *ᵥ g0 (s b k).u) j = (R *ᵥ _) j
    simp only [mulVec, dotProduct, Finset.mul_sum]
    rw [Finset.sum_comm]
    exact Finset.sum_congr rfl fun _ _ => Finset.sum_congr rfl fun _ _ => by ring
  have e1 : ∀ b l, g1 (rotatedRows R Q s (b, l)).u = R * (colSum Q l ^ 2 • (g1 (s b l).u - vecMulVec (g0 (s b l).u) (g0 (s b l).u))
      + vecMulVec (fun j => ∑ k, Q l k * g0 (s b k).u j) fun j => ∑ k, Q l k * g0 (s b k).u j) * Rᵀ := by
    intro b l
    refine (hm b l).2.1.trans ?_
    rw [← (hm b l).1, show g0 (ardRotatePlates Q (fun l => gaussianRotate R none none (s b l)) l).u = _ from e0 b l]
    change colSum Q l ^ 2 • (R * g1 (s b l).u * Rᵀ - vecMulVec (R *ᵥ g0 (s b l).u) (R *ᵥ g0 (s b l).u)) + _ = _
    rw [Matrix.mul_add, Matrix.add_mul, mul_vecMulVec, vecMulVec_mul, vecMul_transpose, Matrix.mul_smul, Matrix.smul_mul,
      Matrix.mul_sub, Matrix.sub_mul, mul_vecMulVec, vecMulVec_mul, vecMul_transpose]
  exact ⟨e0, e1⟩

/-- The squares which the bound uses are those of the new moments. -/
theorem ardSquaresQ_eq (pre : Bool) (πB : B → A₁) (πL : L → A₂) (v : B → L → ι × Fin 4 → ℝ) (s : B → L → ExpState (GIx ι))
    (hs : ∀ b l, StateConsistent gaussianMoments gaussianCgf (s b l)) (hd : ∀ b l, ((-2 : ℝ) • g1 (s b l).phi).PosDef)
    (R : Matrix ι ι ℝ) (hR : R.det ≠ 0) (Q : Matrix L L ℝ) (hQ : ∀ l, colSum Q l ≠ 0) :
    ardSquares (ardSetup (fun p : B × L => (πB p.1, πL p.2)) (fun p => (rotatedRows R Q s p).u) fun p => v p.1 p.2) 1
      = ardSquares (ardSumsQ pre πB πL (ardSetupQ πB πL (fun b l => (s b l).u) v) Q) R := by
  rw [ardSumsQ_precompute]
  funext a i
  rw [ardSquares_eq, gaussianRotate_id]
  obtain ⟨e0, e1⟩ := rotatedRows_moments s hs hd R hR Q hQ
  have q : ∀ N : Matrix ι ι ℝ, ∑ k, (R * N) i k * R i k = (R * N * Rᵀ) i i := fun N => (Matrix.mul_apply (M := R * N) (N := Rᵀ)).symm
  simp only [id]
  rw [sum_filter_pair πB πL a fun p => g1 (rotatedRows R Q s p).u i i - 2 * (g0 (rotatedRows R Q s p).u i
    * (v p.1 p.2 (i, 0) / v p.1 p.2 (i, 2))) + v p.1 p.2 (i, 1) / v p.1 p.2 (i, 2)]
  unfold ardSquares
  simp only [q, e0, e1, Finset.sum_add_distrib, Finset.sum_sub_distrib]
  congr 1
  congr 1
  · simp only [ardSumsQ, Bool.false_eq_true, if_false, ardSetupQ, Matrix.mul_add, Matrix.add_mul, Matrix.mul_sum,
      Matrix.sum_mul, Matrix.add_apply, Matrix.sum_apply, Matrix.mul_smul, Matrix.smul_mul, Matrix.smul_apply,
      Finset.sum_add_distrib, Finset.smul_sum]
    congr 1
    exact Finset.sum_comm
  · simp only [← Finset.mul_sum]
    congr 1
    simp only [ardSumsQ, Bool.false_eq_true, if_false, ardSetupQ, Matrix.sum_apply, vecMulVec_apply, Finset.mul_sum]
    symm
    rw [Finset.sum_comm]
    refine Finset.sum_congr rfl fun b _ => ?_
    rw [Finset.sum_comm]
    refine Finset.sum_congr rfl fun l _ => ?_
    simp only [mulVec, dotProduct, Finset.mul_sum, Finset.sum_mul]
    exact Finset.sum_congr rfl fun _ _ => Finset.sum_congr rfl fun _ _ => by ring

theorem ardBoundUpdate_congr (nP nP' r rK : ℕ) (κ : ι → K) (a a0 b0 : A₁ × A₂ → K → ℝ) (S S' : ArdSums (A₁ × A₂) ι) (R R' : Matrix ι ι ℝ)
    (h : ardSquares S R = ardSquares S' R') :
    ardBoundUpdate nP r rK κ a a0 b0 S R 0 = ardBoundUpdate nP' r rK κ a a0 b0 S' R' 0 := by
  simp only [ardBoundUpdate, ardRate, h, mul_zero]

theorem ardBoundUpdateQ_eq (nB r rK : ℕ) (κ : ι → K) (a a0 b0 : A₁ × A₂ → K → ℝ) (S : ArdSums (A₁ × A₂) ι) (R : Matrix ι ι ℝ)
    (logdet : ℝ) (Q : Matrix L L ℝ) : ardBoundUpdateQ nB r rK κ a a0 b0 S R logdet Q
      = ardBoundUpdate nB r rK κ a a0 b0 S R 0 + plateLogdet nB (Fintype.card ι) Q logdet := by
  unfold ardBoundUpdateQ ardBoundUpdate gaussianEntropy
  simp only
  ring

/-- what the entropies change by -/
theorem rotatedRows_entropy (s : B → L → ExpState (GIx ι)) (hs : ∀ b l, StateConsistent gaussianMoments gaussianCgf (s b l))
    (hd : ∀ b l, ((-2 : ℝ) • g1 (s b l).phi).PosDef) (R : Matrix ι ι ℝ) (hR : R.det ≠ 0) (Q : Matrix L L ℝ)
    (hQ : ∀ l, colSum Q l ≠ 0) :
    ∑ p : B × L, ((rotatedRows R Q s p).g + (rotatedRows R Q s p).phi ⬝ᵥ (rotatedRows R Q s p).u)
      = (∑ p : B × L, ((s p.1 p.2).g + (s p.1 p.2).phi ⬝ᵥ (s p.1 p.2).u))
        - plateLogdet (Fintype.card B) (Fintype.card ι) Q (slogdet R) := by
  have e : ∀ p : B × L, (rotatedRows R Q s p).g + (rotatedRows R Q s p).phi ⬝ᵥ (rotatedRows R Q s p).u
      = ((s p.1 p.2).g + (s p.1 p.2).phi ⬝ᵥ (s p.1 p.2).u) - (slogdet R + Fintype.card ι * Real.log |colSum Q p.2|) := by
    intro p
    have h := (rotatePlates_moments Q hQ (fun l => gaussianRotate R none none (s p.1 l))
      (fun l => (C46_gaussian_rotate R hR none none ⟨by simp, by simp⟩ (s p.1 l) (hs p.1 l) (hd p.1 l)).1)
      (fun l => (C46_gaussian_rotate R hR none none ⟨by simp, by simp⟩ (s p.1 l) (hs p.1 l) (hd p.1 l)).2) p.2).2.2.2.2
    unfold rotatedRows
    rw [h, entropy_rotate hR]
    ring
  rw [Finset.sum_congr rfl fun p _ => e p, Finset.sum_sub_distrib]
  congr 1
  rw [Fintype.sum_prod_type]
  simp only [Finset.sum_const, Finset.card_univ, nsmul_eq_mul]
  rfl

omit [Fintype B] in
/-- the rows after the rotation have consistent moments again -/
theorem rotatedRows_consistent (s : B → L → ExpState (GIx ι)) (hs : ∀ b l, StateConsistent gaussianMoments gaussianCgf (s b l))
    (hd : ∀ b l, ((-2 : ℝ) • g1 (s b l).phi).PosDef) (R : Matrix ι ι ℝ) (hR : R.det ≠ 0) (Q : Matrix L L ℝ)
    (hQ : ∀ l, colSum Q l ≠ 0) (p : B × L) :
    StateConsistent gaussianMoments gaussianCgf (rotatedRows R Q s p) ∧ ((-2 : ℝ) • g1 (rotatedRows R Q s p).phi).PosDef := by
  have h := rotatePlates_moments Q hQ (fun l => gaussianRotate R none none (s p.1 l))
    (fun l => (C46_gaussian_rotate R hR none none ⟨by simp, by simp⟩ (s p.1 l) (hs p.1 l) (hd p.1 l)).1)
    (fun l => (C46_gaussian_rotate R hR none none ⟨by simp, by simp⟩ (s p.1 l) (hs p.1 l) (hd p.1 l)).2) p.2
  exact ⟨h.2.2.2.1, h.2.2.1⟩

/-- **C66** The rows of the dynamics matrix: for every invertible rotation `R` and every rotation `Q` of the plates whose
columns do not sum to zero, the terms of `X` and `alpha` in the lower bound after `rotate` are the bound which
`RotateGaussianARD` computes plus a constant, with both ways of computing the sums. -/
theorem C66_ard_plates (pre : Bool) (πB : B → A₁) (πL : L → A₂) (κ : ι → K) {r rK : ℕ}
    (hr : ∀ a, (Finset.univ.filter fun p : B × L => (πB p.1, πL p.2) = a).card = r)
    (hrK : ∀ k, (Finset.univ.filter fun i => κ i = k).card = rK) (a a0 b0 : A₁ × A₂ → K → ℝ)
    (ha0 : ∀ q k, 0 < a0 q k) (hb0 : ∀ q k, 0 < b0 q k) (m : B → L → ι → Fin 2 → ℝ)
    (hm : ∀ b l i, m b l i 0 ^ 2 ≤ m b l i 1) (t : A₁ × A₂ → K → Fin 2 → ℝ) (ht : ∀ a k, 0 < t a k 0)
    (s : B → L → ExpState (GIx ι)) (hs : ∀ b l, StateConsistent gaussianMoments gaussianCgf (s b l))
    (hd : ∀ b l, ((-2 : ℝ) • g1 (s b l).phi).PosDef) :
    ∃ C, ∀ (R : Matrix ι ι ℝ) (Q : Matrix L L ℝ), R.det ≠ 0 → (∀ l, colSum Q l ≠ 0) →
      ∑ p : B × L, ardTerm (fun i => wrap0 (m p.1 p.2 i.1) (gammaMoments (alphaPhi (fun p : B × L => (πB p.1, πL p.2)) κ a0 b0
            (fun p => m p.1 p.2) (fun p => (rotatedRows R Q s p).u) (πB p.1, πL p.2) (κ i.1))) i.2) (rotatedRows R Q s p)
        + ∑ q, ∑ k, gammaTerm (gammaPriorFixed (a0 q k)) (gammaFixed (b0 q k)) (alphaPhi (fun p : B × L => (πB p.1, πL p.2)) κ a0 b0
            (fun p => m p.1 p.2) (fun p => (rotatedRows R Q s p).u) q k)
        = ardBoundUpdateQ (Fintype.card B) r rK κ a a0 b0 (ardSumsQ pre πB πL (ardSetupQ πB πL (fun b l => (s b l).u)
            fun b l i => wrap0 (m b l i.1) (t (πB b, πL l) (κ i.1)) i.2) Q) R (slogdet R) Q + C := by
  let a' := fun q k => a0 q k + 0.5 * (r * rK : ℕ)
  refine ⟨ardConst (fun p : B × L => (πB p.1, πL p.2)) κ a' a0 b0 - (∑ p : B × L, ((s p.1 p.2).g + (s p.1 p.2).phi ⬝ᵥ (s p.1 p.2).u))
    - ∑ q, ∑ k, a' q k + ∑ q, ∑ k, a q k, fun R Q hR hQ => ?_⟩
  have hsec : ∀ p, SecondMoment (rotatedRows R Q s p).u := by
    intro p
    obtain ⟨h1, h2⟩ := rotatedRows_consistent s hs hd R hR Q hQ p
    rw [h1.1]
    exact secondMoment_gaussian _ h2
  have h := ard_update_explicit (fun p : B × L => (πB p.1, πL p.2)) κ hr hrK a' a0 b0 (fun _ _ => rfl) hb0 (fun p => m p.1 p.2)
    (fun p => hm p.1 p.2) t ht (rotatedRows R Q s) hsec ha0 1 (by rw [det_one]; exact one_ne_zero)
  simp only [gaussianRotate_id, id] at h
  refine h.trans ?_
  have hb := fun q k => (ardRate_pos (fun p : B × L => (πB p.1, πL p.2)) κ b0 hb0 (fun p => m p.1 p.2) (fun p => hm p.1 p.2) t ht
    (rotatedRows R Q s) hsec 1 q k).ne'
  have hsq := ardSquaresQ_eq pre πB πL (fun b l i => wrap0 (m b l i.1) (t (πB b, πL l) (κ i.1)) i.2) s hs hd R hR Q hQ
  have hb' : ∀ q k, ardRate κ b0 (ardSumsQ pre πB πL (ardSetupQ πB πL (fun b l => (s b l).u)
            fun b l i => wrap0 (m b l i.1) (t (πB b, πL l) (κ i.1)) i.2) Q) R q k ≠ 0 := by
    intro q k
    have := hb q k
    unfold ardRate at *
    rwa [hsq] at this
  have hl : slogdet (1 : Matrix ι ι ℝ) = 0 := by simp [slogdet]
  rw [rotatedRows_entropy s hs hd R hR Q hQ, ardBoundUpdateQ_eq, hl,
    ardBoundUpdate_congr _ (Fintype.card B) r rK κ a' a0 b0 _ _ 1 R hsq, ardBoundUpdate_eq _ _ _ _ _ _ _ _ _ _ hb',
    ardBoundUpdate_eq _ _ _ _ _ _ _ _ _ _ hb']
  ring

/-- **C66** the same with a fixed `alpha`, without the rates -/
theorem C66_ard_plates_fixed (pre : Bool) (πB : B → A₁) (πL : L → A₂) (κ : ι → K) (m : B → L → ι → Fin 2 → ℝ)
    (t : A₁ × A₂ → K → Fin 2 → ℝ) (ht : ∀ a k, t a k 0 ≠ 0)
    (s : B → L → ExpState (GIx ι)) (hs : ∀ b l, StateConsistent gaussianMoments gaussianCgf (s b l))
    (hd : ∀ b l, ((-2 : ℝ) • g1 (s b l).phi).PosDef) :
    ∃ C, ∀ (R : Matrix ι ι ℝ) (Q : Matrix L L ℝ), R.det ≠ 0 → (∀ l, colSum Q l ≠ 0) →
      ∑ p : B × L, ardTerm (fun i => wrap0 (m p.1 p.2 i.1) (t (πB p.1, πL p.2) (κ i.1)) i.2) (rotatedRows R Q s p)
        = ardBoundFixedQ (Fintype.card B) κ (fun a k => t a k 0) (ardSumsQ pre πB πL (ardSetupQ πB πL (fun b l => (s b l).u)
            fun b l i => wrap0 (m b l i.1) (t (πB b, πL l) (κ i.1)) i.2) Q) R (slogdet R) Q + C := by
  refine ⟨0.5 * (∑ p : B × L, ∑ i, t (πB p.1, πL p.2) (κ i) 1)
    - ∑ p : B × L, ((s p.1 p.2).g + (s p.1 p.2).phi ⬝ᵥ (s p.1 p.2).u), fun R Q hR hQ => ?_⟩
  have h := ard_terms (fun p : B × L => (πB p.1, πL p.2)) κ (fun p => m p.1 p.2) t t ht ht (rotatedRows R Q s) (R := 1)
    (by rw [det_one]; exact one_ne_zero)
  simp only [gaussianRotate_id, id] at h
  have hl : slogdet (1 : Matrix ι ι ℝ) = 0 := by simp [slogdet]
  rw [h, ardSquaresQ_eq pre πB πL (fun b l i => wrap0 (m b l i.1) (t (πB b, πL l) (κ i.1)) i.2) s hs hd R hR Q hQ,
    rotatedRows_entropy s hs hd R hR Q hQ, hl]
  unfold ardBoundFixedQ gaussianEntropy gaussianLogpdf
  simp only
  ring

end

/-! ### the chain -/

section
variable {M D : Nat} {κ : Type} [Fintype κ]

/-- the terms of one chain in the lower bound -/
noncomputable def Spec.chainTerm (v : GWIx (Fin D) → ℝ) (a : DynIx M D κ → ℝ) (z : InpIx M κ → ℝ) (s : ExpState (GMCIx M D)) : ℝ :=
  gmcPhi v a z ⬝ᵥ s.u + gmcCgfP v a z - (s.g + s.phi ⬝ᵥ s.u)

theorem chain_entropy_rotate {R : Matrix (Fin D) (Fin D) ℝ} (hR : R.det ≠ 0) (s : ExpState (GMCIx M D)) :
    (gmcRotate R none none s).g + (gmcRotate R none none s).phi ⬝ᵥ (gmcRotate R none none s).u
      = s.g + s.phi ⬝ᵥ s.u - (M + 1 : ℕ) * slogdet R := by
  have e1 : (gmcRotate R none none s).phi ⬝ᵥ (gmcRotate R none none s).u = s.phi ⬝ᵥ s.u := by
    rw [c_dot, c_dot]
    congr 1
    · congr 1
      · refine Finset.sum_congr rfl fun n _ => ?_
        change (R⁻¹ᵀ *ᵥ c0 s.phi n) ⬝ᵥ (R *ᵥ c0 s.u n) = c0 s.phi n ⬝ᵥ c0 s.u n
        rw [dotProduct_comm, rotate_dot hR, dotProduct_comm]
      · exact Finset.sum_congr rfl fun n _ => frob_rotate hR (c1 s.phi n) (c1 s.u n)
    · exact Finset.sum_congr rfl fun n _ => frob_rotate hR (c2 s.phi n) (c2 s.u n)
  rw [e1]
  change s.g + -((M + 1 : ℕ) : ℝ) * slogdet R + _ = _
  ring

theorem frob_sum_type (X Y : Matrix (Fin D ⊕ κ) (Fin D ⊕ κ) ℝ) :
    frob X Y = (∑ i, ∑ j, X (.inl i) (.inl j) * Y (.inl i) (.inl j)) + (∑ i, ∑ k, X (.inl i) (.inr k) * Y (.inl i) (.inr k))
      + (∑ k, ∑ i, X (.inr k) (.inl i) * Y (.inr k) (.inl i)) + ∑ k, ∑ l, X (.inr k) (.inr l) * Y (.inr k) (.inr l) := by
  unfold frob
  simp only [Fintype.sum_sum_type, Finset.sum_add_distrib]
  ring

/-- the expected log-density of the chain with unit innovation noise -/
theorem unit_chain_logpdf (u : GMCIx M D → ℝ) (v : GWIx (Fin D) → ℝ) (A : Fin M → Fin D → GIx (Fin D ⊕ κ) → ℝ)
    (hA : ∀ m d, (g1 (A m d))ᵀ = g1 (A m d)) (z : InpIx M κ → ℝ) :
    gmcPhi v (unitDyn A) z ⬝ᵥ u + gmcCgfP v (unitDyn A) z
      = (gw0 v ⬝ᵥ c0 u 0 - 0.5 * gw1 v - 0.5 * frob (gw2 v) (c1 u 0) + 0.5 * gw3 v)
        + ∑ m : Fin M, (-0.5 * (c1 u m.succ).trace + ((of fun d => g0 (A m d)) * chainXpXn u z m).trace
          - 0.5 * ∑ d, frob (g1 (A m d)) (chainXpXp u z m)) := by
  have h := gmc_logpdf u v (unitDyn A) z 0
  rw [logpdf_eq] at h
  simp only [add_zero] at h
  rw [h]
  congr 1
  refine Finset.sum_congr rfl fun m _ => ?_
  have k0 : ∀ d j, d0 (unitDyn A) m d j = g0 (A m d) j := fun d j => mul_one _
  have k1 : ∀ d i j, d1 (unitDyn A) m d i j = g1 (A m d) i j := fun d i j => mul_one _
  have k2 : ∀ d, d2 (unitDyn A) m d = 1 := fun d => mul_one _
  have k3 : ∀ d, d3 (unitDyn A) m d = 0 := fun d => add_zero _
  simp only [k0, k1, k2, k3, frob_sum_type, one_mul, Finset.sum_const_zero, mul_zero, add_zero]
  have x11 : ∀ i j, chainXpXp u z m (.inl i) (.inl j) = c1 u m.castSucc i j := fun _ _ => rfl
  have x12 : ∀ i k, chainXpXp u z m (.inl i) (.inr k) = i0 z m k * c0 u m.castSucc i := fun _ _ => rfl
  have x21 : ∀ i k, chainXpXp u z m (.inr k) (.inl i) = i0 z m k * c0 u m.castSucc i := fun _ _ => rfl
  have x22 : ∀ k l, chainXpXp u z m (.inr k) (.inr l) = i1 z m k l := fun _ _ => rfl
  have y1 : ∀ i j, chainXpXn u z m (.inl i) j = c2 u m i j := fun _ _ => rfl
  have y2 : ∀ k j, chainXpXn u z m (.inr k) j = i0 z m k * c0 u m.succ j := fun _ _ => rfl
  have hs : ∀ d k i, g1 (A m d) (.inr k) (.inl i) = g1 (A m d) (.inl i) (.inr k) :=
    fun d k i => congrFun (congrFun (hA m d) (.inl i)) (.inr k)
  simp only [Matrix.trace, diag_apply, Matrix.mul_apply, of_apply, Fintype.sum_sum_type, x11, x12, x21, x22, y1, y2, hs,
    Finset.sum_add_distrib]
  have r1 : ∑ i, (∑ k, g0 (A m i) (.inr k) * i0 z m k) * c0 u m.succ i
      = ∑ i, ∑ k, g0 (A m i) (.inr k) * (i0 z m k * c0 u m.succ i) :=
    Finset.sum_congr rfl fun i _ => by rw [Finset.sum_mul]; exact Finset.sum_congr rfl fun k _ => by ring
  have r2 : ∑ i, (∑ k, (∑ d, g1 (A m d) (.inl i) (.inr k)) * i0 z m k) * c0 u m.castSucc i
      = ∑ d, ∑ i, ∑ k, g1 (A m d) (.inl i) (.inr k) * (i0 z m k * c0 u m.castSucc i) := by
    simp only [Finset.sum_mul]
    rw [Finset.sum_comm (s := Finset.univ (α := Fin D)) (t := Finset.univ (α := Fin D))]
    refine Finset.sum_congr rfl fun i _ => ?_
    rw [Finset.sum_comm]
    refine Finset.sum_congr rfl fun d _ => Finset.sum_congr rfl fun k _ => by ring
  have r3 : ∑ d, ∑ k, ∑ i, g1 (A m d) (.inl i) (.inr k) * (i0 z m k * c0 u m.castSucc i)
      = ∑ d, ∑ i, ∑ k, g1 (A m d) (.inl i) (.inr k) * (i0 z m k * c0 u m.castSucc i) :=
    Finset.sum_congr rfl fun d _ => Finset.sum_comm
  have r4 : ∑ i, ∑ j, (∑ d, g1 (A m d) (.inl i) (.inl j)) * c1 u m.castSucc i j
      = ∑ d, ∑ i, ∑ j, g1 (A m d) (.inl i) (.inl j) * c1 u m.castSucc i j := by
    simp only [Finset.sum_mul]
    rw [Finset.sum_congr rfl fun i _ => Finset.sum_comm, Finset.sum_comm]
  have r5 : ∑ k, ∑ l, i1 z m k l * ∑ d, g1 (A m d) (.inr k) (.inr l)
      = ∑ d, ∑ k, ∑ l, g1 (A m d) (.inr k) (.inr l) * i1 z m k l := by
    simp only [Finset.mul_sum]
    rw [Finset.sum_congr rfl fun k _ => Finset.sum_comm, Finset.sum_comm]
    exact Finset.sum_congr rfl fun d _ => Finset.sum_congr rfl fun k _ => Finset.sum_congr rfl fun l _ => mul_comm _ _
  have r6 : ∑ i, ∑ j, g0 (A m j) (.inl i) * c2 u m i j = ∑ d, ∑ i, g0 (A m d) (.inl i) * c2 u m i d := Finset.sum_comm
  rw [r1, r2, r3, r4, r5, r6]
  ring

section
variable [DecidableEq κ]

theorem withInputs_mul (X Y : Matrix (Fin D) (Fin D) ℝ) : withInputs (κ := κ) X * withInputs Y = withInputs (X * Y) := by
  unfold withInputs
  rw [fromBlocks_multiply]
  simp

omit [Fintype κ] in
theorem withInputs_transpose (X : Matrix (Fin D) (Fin D) ℝ) : (withInputs (κ := κ) X)ᵀ = withInputs Xᵀ := by
  unfold withInputs
  rw [fromBlocks_transpose]
  simp

omit [Fintype κ] in
theorem withInputs_one : withInputs (κ := κ) (1 : Matrix (Fin D) (Fin D) ℝ) = 1 := fromBlocks_one

theorem withInputs_det (X : Matrix (Fin D) (Fin D) ℝ) : (withInputs (κ := κ) X).det = X.det := by
  unfold withInputs
  rw [det_fromBlocks_zero₂₁, det_one, mul_one]

theorem withInputs_inv {X : Matrix (Fin D) (Fin D) ℝ} (hX : X.det ≠ 0) : (withInputs (κ := κ) X)⁻¹ = withInputs X⁻¹ :=
  inv_eq_left_inv (by rw [withInputs_mul, nonsing_inv_mul _ hX.isUnit, withInputs_one])

/-- the moments of the states and inputs after the rotation -/
theorem rotate_XpXn (R : Matrix (Fin D) (Fin D) ℝ) (s : ExpState (GMCIx M D)) (z : InpIx M κ → ℝ) (m : Fin M) :
    chainXpXn (gmcRotate R none none s).u z m = withInputs R * chainXpXn s.u z m * Rᵀ := by
  change Matrix.fromRows (R * c2 s.u m * Rᵀ) (vecMulVec (i0 z m) (R *ᵥ c0 s.u m.succ)) = _
  unfold chainXpXn withInputs
  rw [fromBlocks_mul_fromRows, Matrix.fromRows_mul]
  simp only [Matrix.zero_mul, add_zero, zero_add, Matrix.one_mul, vecMulVec_mul, vecMul_transpose]

theorem rotate_XpXp (R : Matrix (Fin D) (Fin D) ℝ) (s : ExpState (GMCIx M D)) (z : InpIx M κ → ℝ) (m : Fin M) :
    chainXpXp (gmcRotate R none none s).u z m = withInputs R * chainXpXp s.u z m * (withInputs R)ᵀ := by
  change fromBlocks (R * c1 s.u m.castSucc * Rᵀ) (vecMulVec (i0 z m) (R *ᵥ c0 s.u m.castSucc))ᵀ
    (vecMulVec (i0 z m) (R *ᵥ c0 s.u m.castSucc)) (of (i1 z m)) = _
  unfold chainXpXp withInputs
  simp only [fromBlocks_transpose, fromBlocks_multiply, Matrix.zero_mul, Matrix.mul_zero, add_zero, zero_add, Matrix.one_mul,
    Matrix.mul_one, transpose_zero, transpose_one, vecMulVec_mul, vecMul_transpose, transpose_vecMulVec, mul_vecMulVec,
    zero_mulVec, one_mulVec, zero_vecMulVec]

theorem frob_add_left {ι : Type*} [Fintype ι] (X Y Z : Matrix ι ι ℝ) : frob (X + Y) Z = frob X Z + frob Y Z := by
  simp only [frob, Matrix.add_apply, add_mul, Finset.sum_add_distrib]

theorem frob_smul_left {ι : Type*} [Fintype ι] (c : ℝ) (X Z : Matrix ι ι ℝ) : frob (c • X) Z = c * frob X Z := by
  simp only [frob, Matrix.smul_apply, smul_eq_mul, Finset.mul_sum, mul_assoc]

theorem frob_rows {ι' : Type*} [Fintype ι'] (W : Matrix (Fin D) ι' ℝ) (X : Matrix ι' ι' ℝ) :
    ∑ d, frob (vecMulVec (W d) (W d)) X = (W * X * Wᵀ).trace := by
  simp only [frob, Matrix.trace, diag_apply, Matrix.mul_apply, vecMulVec_apply, transpose_apply, Finset.sum_mul]
  refine Finset.sum_congr rfl fun d _ => ?_
  rw [Finset.sum_comm]
  exact Finset.sum_congr rfl fun _ _ => Finset.sum_congr rfl fun _ _ => by ring

section
variable {P B : Type*} [Fintype P]

/-- **C66** The chain: for every invertible rotation whose columns do not sum to zero, the terms of the chains in the lower bound
after rotating the chains and the dynamics are the bound which `RotateGaussianMarkovChain._compute_bound` computes plus a
constant.  The plates and the transitions may share dynamics matrices in any way. -/
theorem C66_chain (β : P → Fin M → B) (v : P → GWIx (Fin D) → ℝ) (hv : ∀ p, (gw2 (v p))ᵀ = gw2 (v p)) (z : P → InpIx M κ → ℝ)
    (s : P → ExpState (GMCIx M D)) (sA : B → Fin D → ExpState (GIx (Fin D ⊕ κ)))
    (hs : ∀ b d, StateConsistent gaussianMoments gaussianCgf (sA b d)) (hd : ∀ b d, ((-2 : ℝ) • g1 (sA b d).phi).PosDef) :
    ∃ C, ∀ R : Matrix (Fin D) (Fin D) ℝ, R.det ≠ 0 → (∀ d, colSum R d ≠ 0) →
      ∑ p, chainTerm (v p) (unitDyn fun m d => (rotatedRows (withInputs R⁻¹ᵀ) R sA (β p m, d)).u) (z p) (gmcRotate R none none (s p))
        = chainBound (M + 1) (Fintype.card P)
            (chainSetup (fun p => (s p).u) v (fun p m d => (sA (β p m) d).u) z) R (slogdet R) + C := by
  refine ⟨∑ p, (-0.5 * gw1 (v p) + 0.5 * gw3 (v p)) - ∑ p, ((s p).g + (s p).phi ⬝ᵥ (s p).u), fun R hR hQ => ?_⟩
  have hW : (withInputs (κ := κ) R).det ≠ 0 := by rw [withInputs_det]; exact hR
  have eW : withInputs (κ := κ) R⁻¹ᵀ = (withInputs R)⁻¹ᵀ := by rw [withInputs_inv hR, withInputs_transpose]
  have hW' : (withInputs (κ := κ) R⁻¹ᵀ).det ≠ 0 := by
    rw [withInputs_det]
    exact (C46_opposite_args R hR).1
  obtain ⟨e0, e1⟩ := rotatedRows_moments sA hs hd (withInputs R⁻¹ᵀ) hW' R hQ
  have hsym : ∀ b d, (g1 (rotatedRows (withInputs R⁻¹ᵀ) R sA (b, d)).u)ᵀ = g1 (rotatedRows (withInputs R⁻¹ᵀ) R sA (b, d)).u := by
    intro b d
    obtain ⟨h1, h2⟩ := rotatedRows_consistent sA hs hd (withInputs R⁻¹ᵀ) hW' R hQ (b, d)
    have := (secondMoment_gaussian _ h2).posSemidef.isHermitian
    rw [← h1.1] at this
    rwa [IsHermitian, conjTranspose_eq_transpose_of_trivial] at this
  let Am : B → Matrix (Fin D) (Fin D ⊕ κ) ℝ := fun b => of fun d => g0 (sA b d).u
  have ew : ∀ b d, (fun j => ∑ k, R d k * g0 (sA b k).u j) = (R * Am b) d := fun b d => rfl
  have eA : ∀ b, (of fun d => g0 (rotatedRows (withInputs R⁻¹ᵀ) R sA (b, d)).u) = R * Am b * (withInputs R)⁻¹ := by
    intro b
    ext d j
    rw [of_apply, e0, ew, eW, mulVec_transpose]
    rfl
  have t1 : ∀ p m, ((of fun d => g0 (rotatedRows (withInputs R⁻¹ᵀ) R sA (β p m, d)).u)
      * chainXpXn (gmcRotate R none none (s p)).u (z p) m).trace = (R * (Am (β p m) * chainXpXn (s p).u (z p) m) * Rᵀ).trace := by
    intro p m
    rw [eA, rotate_XpXn]
    congr 1
    rw [Matrix.mul_assoc (withInputs R), Matrix.mul_assoc (R * Am (β p m)), nonsing_inv_mul_cancel_left _ _ hW.isUnit]
    simp only [Matrix.mul_assoc]
  have t2 : ∀ p m, ∑ d, frob (g1 (rotatedRows (withInputs R⁻¹ᵀ) R sA (β p m, d)).u) (chainXpXp (gmcRotate R none none (s p)).u (z p) m)
      = (R * (Am (β p m) * chainXpXp (s p).u (z p) m * (Am (β p m))ᵀ) * Rᵀ).trace
        + ∑ d, colSum R d ^ 2 * frob (g1 (sA (β p m) d).u - vecMulVec (g0 (sA (β p m) d).u) (g0 (sA (β p m) d).u))
          (chainXpXp (s p).u (z p) m) := by
    intro p m
    have h : ∀ d, frob (g1 (rotatedRows (withInputs R⁻¹ᵀ) R sA (β p m, d)).u) (chainXpXp (gmcRotate R none none (s p)).u (z p) m)
        = colSum R d ^ 2 * frob (g1 (sA (β p m) d).u - vecMulVec (g0 (sA (β p m) d).u) (g0 (sA (β p m) d).u))
          (chainXpXp (s p).u (z p) m) + frob (vecMulVec ((R * Am (β p m)) d) ((R * Am (β p m)) d)) (chainXpXp (s p).u (z p) m) := by
      intro d
      rw [e1, rotate_XpXp, eW, transpose_transpose, frob_rotate hW, frob_add_left, frob_smul_left]
      rfl
    rw [Finset.sum_congr rfl fun d _ => h d, Finset.sum_add_distrib, add_comm, frob_rows, transpose_mul]
    simp only [Matrix.mul_assoc]
  have t3 : ∀ p, gw0 (v p) ⬝ᵥ c0 (gmcRotate R none none (s p)).u 0 = (vecMulVec (gw0 (v p)) (c0 (s p).u 0) * Rᵀ).trace := by
    intro p
    rw [vecMulVec_mul, vecMul_transpose, trace_vecMulVec]
    rfl
  have t4 : ∀ p, frob (gw2 (v p)) (c1 (gmcRotate R none none (s p)).u 0) = (gw2 (v p) * R * c1 (s p).u 0 * Rᵀ).trace := by
    intro p
    rw [frob_eq_trace, hv]
    change (gw2 (v p) * (R * c1 (s p).u 0 * Rᵀ)).trace = _
    simp only [Matrix.mul_assoc]
  have hterm : ∀ p, chainTerm (v p) (unitDyn fun m d => (rotatedRows (withInputs R⁻¹ᵀ) R sA (β p m, d)).u) (z p) (gmcRotate R none none (s p))
      = ((vecMulVec (gw0 (v p)) (c0 (s p).u 0) * Rᵀ).trace - 0.5 * (gw2 (v p) * R * c1 (s p).u 0 * Rᵀ).trace
          + ∑ m : Fin M, (-0.5 * (R * c1 (s p).u m.succ * Rᵀ).trace + (R * (Am (β p m) * chainXpXn (s p).u (z p) m) * Rᵀ).trace
            - 0.5 * ((R * (Am (β p m) * chainXpXp (s p).u (z p) m * (Am (β p m))ᵀ) * Rᵀ).trace
              + ∑ d, colSum R d ^ 2 * frob (g1 (sA (β p m) d).u - vecMulVec (g0 (sA (β p m) d).u) (g0 (sA (β p m) d).u))
                (chainXpXp (s p).u (z p) m))))
        + (M + 1 : ℕ) * slogdet R + (-0.5 * gw1 (v p) + 0.5 * gw3 (v p)) - ((s p).g + (s p).phi ⬝ᵥ (s p).u) := by
    intro p
    unfold chainTerm
    rw [chain_entropy_rotate hR, unit_chain_logpdf _ _ _ fun m d => hsym _ _, t3, t4]
    simp only [t1, t2]
    have : ∀ m : Fin M, c1 (gmcRotate R none none (s p)).u m.succ = R * c1 (s p).u m.succ * Rᵀ := fun m => rfl
    simp only [this]
    ring
  rw [Finset.sum_congr rfl fun p _ => hterm p]
  simp only [Finset.sum_add_distrib, Finset.sum_sub_distrib, Finset.sum_const, Finset.card_univ, nsmul_eq_mul, ← Finset.mul_sum]
  unfold chainBound chainSetup gaussianLogpdf gaussianEntropy
  simp only [Matrix.mul_sum, Matrix.sum_mul, trace_sum]
  have t5 : ∑ d, colSum R d * (∑ p, ∑ m : Fin M, ∑ i, ∑ j, (g1 (sA (β p m) d).u - vecMulVec (g0 (sA (β p m) d).u) (g0 (sA (β p m) d).u)) i j
      * chainXpXp (s p).u (z p) m i j) * colSum R d
      = ∑ p, ∑ m : Fin M, ∑ d, colSum R d ^ 2 * frob (g1 (sA (β p m) d).u - vecMulVec (g0 (sA (β p m) d).u) (g0 (sA (β p m) d).u))
                (chainXpXp (s p).u (z p) m) := by
    rw [Finset.sum_congr rfl fun p _ => Finset.sum_comm, Finset.sum_comm]
    refine Finset.sum_congr rfl fun d _ => ?_
    simp only [← Finset.mul_sum]
    rw [sq, mul_right_comm]
    rfl
  rw [t5]
  push_cast
  ring

/-- the arguments which `rotate` gives to the rotator of the dynamics -/
theorem chainRotateA_eq {R : Matrix (Fin D) (Fin D) ℝ} (hR : R.det ≠ 0) (sA : B → Fin D → ExpState (GIx (Fin D ⊕ κ))) :
    chainRotateA R R⁻¹ (slogdet R) sA = rotatedRows (withInputs R⁻¹ᵀ) R sA := by
  have hW : (withInputs (κ := κ) R).det ≠ 0 := by rw [withInputs_det]; exact hR
  have eW : withInputs (κ := κ) R⁻¹ᵀ = (withInputs R)⁻¹ᵀ := by rw [withInputs_inv hR, withInputs_transpose]
  have el : slogdet R = slogdet (withInputs (κ := κ) R) := by unfold slogdet; rw [withInputs_det]
  funext p
  unfold chainRotateA rotatedRows
  congr 1
  funext d
  rw [← withInputs_transpose R, eW, el]
  exact gaussianRotate_opposite hW _

/-- **C66** `RotateGaussianMarkovChain` with `RotateGaussianARD` for the dynamics: for every invertible rotation whose columns do
not sum to zero, the terms of the chains, of the dynamics and of `alpha` in the lower bound after `rotate` are the bound which
the optimiser is given plus a constant. -/
theorem C66_chain_block [Fintype B] {A₁ A₂ K : Type*} [Fintype A₁] [Fintype A₂] [Fintype K] [DecidableEq A₁] [DecidableEq A₂]
    [DecidableEq K] (β : P → Fin M → B) (v : P → GWIx (Fin D) → ℝ) (hv : ∀ p, (gw2 (v p))ᵀ = gw2 (v p)) (z : P → InpIx M κ → ℝ)
    (s : P → ExpState (GMCIx M D)) (sA : B → Fin D → ExpState (GIx (Fin D ⊕ κ)))
    (hs : ∀ b d, StateConsistent gaussianMoments gaussianCgf (sA b d)) (hd : ∀ b d, ((-2 : ℝ) • g1 (sA b d).phi).PosDef)
    (pre : Bool) (πB : B → A₁) (πL : Fin D → A₂) (κ' : Fin D ⊕ κ → K) {rB rL rK : ℕ}
    (hr : ∀ a, (Finset.univ.filter fun p : B × Fin D => (πB p.1, πL p.2) = a).card = rB * rL)
    (hrK : ∀ k, (Finset.univ.filter fun i => κ' i = k).card = rK) (a : A₁ × A₂ → K → ℝ) (a0 b0 : ℝ)
    (ha0 : 0 < a0) (hb0 : 0 < b0) (m : B → Fin D → Fin D ⊕ κ → Fin 2 → ℝ)
    (hm : ∀ b l i, m b l i 0 ^ 2 ≤ m b l i 1) (t : A₁ × A₂ → K → Fin 2 → ℝ) (ht : ∀ a k, 0 < t a k 0) :
    ∃ C, ∀ R : Matrix (Fin D) (Fin D) ℝ, R.det ≠ 0 → (∀ d, colSum R d ≠ 0) →
      let sA' := chainRotateA R R⁻¹ (slogdet R) sA
      let alpha := alphaPhi (fun p : B × Fin D => (πB p.1, πL p.2)) κ' (fun _ _ => a0) (fun _ _ => b0) (fun p => m p.1 p.2)
        fun p => (sA' p).u
      ∑ p, chainTerm (v p) (unitDyn fun m d => (sA' (β p m, d)).u) (z p) (gmcRotate R (some R⁻¹) (some (slogdet R)) (s p))
        + (∑ p : B × Fin D, ardTerm (fun i => wrap0 (m p.1 p.2 i.1) (gammaMoments (alpha (πB p.1, πL p.2) (κ' i.1))) i.2) (sA' p)
          + ∑ q, ∑ k, gammaTerm (gammaPriorFixed a0) (gammaFixed b0) (alpha q k))
        = ((chainBlock (M + 1) (Fintype.card P) (chainSetup (fun p => (s p).u) v (fun p m d => (sA (β p m) d).u) z)
            (ardBlockQ pre (Fintype.card B) (Fintype.card (Fin D)) rB rL rK πB πL κ' a a0 b0 (ardSetupQ πB πL (fun b l => (sA b l).u)
              fun b l i => wrap0 (m b l i.1) (t (πB b, πL l) (κ' i.1)) i.2))).bound R (slogdet R) R⁻¹).1 + C := by
  obtain ⟨C1, h1⟩ := C66_chain β v hv z s sA hs hd
  obtain ⟨C2, h2⟩ := C66_ard_plates pre πB πL κ' hr hrK a (fun _ _ => a0) (fun _ _ => b0) (fun _ _ => ha0) (fun _ _ => hb0) m hm t ht sA hs hd
  refine ⟨C1 + C2, fun R hR hQ => ?_⟩
  have hW' : (withInputs (κ := κ) R⁻¹ᵀ).det ≠ 0 := by
    rw [withInputs_det]
    exact (C46_opposite_args R hR).1
  have el : slogdet (withInputs (κ := κ) R⁻¹ᵀ) = -slogdet R := by
    unfold slogdet
    rw [withInputs_det, det_transpose, det_nonsing_inv, Ring.inverse_eq_inv', Real.log_inv]
  intro sA' alpha
  have e : sA' = rotatedRows (withInputs R⁻¹ᵀ) R sA := chainRotateA_eq hR sA
  have k1 := h1 R hR hQ
  have k2 := h2 (withInputs R⁻¹ᵀ) R hW' hQ
  rw [el] at k2
  change _ = chainBound (M + 1) (Fintype.card P) _ R (slogdet R) + ardBoundUpdateQ (Fintype.card B) (rB * rL) rK κ' a (fun _ _ => a0) (fun _ _ => b0)
    _ (withInputs R⁻¹ᵀ) (-slogdet R) R + (C1 + C2)
  rw [← e] at k1 k2
  refine (congrArg₂ (· + ·) k1 k2).trans ?_
  ring

end

end

end

/-! ### examples -/

section

/-- rows of a dynamics matrix with an input: unit precision, means `(1, d, 2)` -/
noncomputable def exRow (d : Fin 2) : ExpState (GIx (Fin 2 ⊕ Fin 1)) :=
  let phi := mkG (Sum.elim ![1, (d : ℝ)] fun _ => 2) ((-(1 / 2) : ℝ) • (1 : Matrix (Fin 2 ⊕ Fin 1) (Fin 2 ⊕ Fin 1) ℝ))
  { u := gaussianMoments phi, phi := phi, g := gaussianCgf phi }

theorem exRow_consistent (d : Fin 2) : StateConsistent gaussianMoments gaussianCgf (exRow d) := ⟨rfl, rfl⟩

theorem exRow_posDef (d : Fin 2) : ((-2 : ℝ) • g1 (exRow d).phi).PosDef := by
  have e : (-2 : ℝ) • g1 (exRow d).phi = 1 := by
    change (-2 : ℝ) • ((-(1 / 2) : ℝ) • (1 : Matrix (Fin 2 ⊕ Fin 1) (Fin 2 ⊕ Fin 1) ℝ)) = 1
    rw [smul_smul]
    norm_num
  rw [e]
  exact PosDef.one

/-- a shear of the states of a chain: its columns sum to one and three -/
noncomputable def exShear : Matrix (Fin 2) (Fin 2) ℝ := !![1, 1; 0, 2]

theorem exShear_det : exShear.det ≠ 0 := by
  refine (det_fin_two_of (1 : ℝ) 1 0 2).trans_ne ?_
  norm_num

theorem exShear_colSum (d : Fin 2) : colSum exShear d ≠ 0 := by
  fin_cases d <;> norm_num [colSum, exShear, Fin.sum_univ_two]

theorem colSum_one {L : Type*} [Fintype L] [DecidableEq L] (l : L) : colSum (1 : Matrix L L ℝ) l ≠ 0 := by
  simp [colSum, one_apply]

/-- the moments of the initial state: unit precision and mean `(1, 3)` -/
noncomputable def exInitial : GWIx (Fin 2) → ℝ := mkGW ![1, 3] 12 1 0

theorem exInitial_symm : (gw2 exInitial)ᵀ = gw2 exInitial := by
  change (1 : Matrix (Fin 2) (Fin 2) ℝ)ᵀ = 1
  exact transpose_one

/-- one transition with an input of 5 -/
noncomputable def exInput : InpIx 1 (Fin 1) → ℝ := Sum.elim (fun _ => 5) fun _ => 26

/-- the terms of a chain and its dynamics change with the shear as the bound says, from the unrotated ones -/
example (s : ExpState (GMCIx 1 2)) :
    let term := fun R : Matrix (Fin 2) (Fin 2) ℝ => chainTerm exInitial
      (unitDyn fun _ d => (rotatedRows (withInputs R⁻¹ᵀ) R (fun _ : Unit => exRow) ((), d)).u) exInput (gmcRotate R none none s)
    let S := chainSetup (fun _ : Unit => s.u) (fun _ => exInitial) (fun _ _ d => (exRow d).u) fun _ => exInput
    term exShear - term 1 = chainBound 2 1 S exShear (slogdet exShear) - chainBound 2 1 S 1 (slogdet (1 : Matrix (Fin 2) (Fin 2) ℝ)) := by
  intro term S
  obtain ⟨C, h⟩ := C66_chain (P := Unit) (B := Unit) (fun _ _ => ()) (fun _ => exInitial) (fun _ => exInitial_symm) (fun _ => exInput)
    (fun _ => s) (fun _ => exRow) (fun _ => exRow_consistent) fun _ => exRow_posDef
  have h1 := h exShear exShear_det exShear_colSum
  have h2 := h 1 (by rw [det_one]; exact one_ne_zero) colSum_one
  rw [Fintype.sum_unique] at h1 h2
  change term exShear = chainBound 2 1 S exShear (slogdet exShear) + C at h1
  change term 1 = chainBound 2 1 S 1 (slogdet (1 : Matrix (Fin 2) (Fin 2) ℝ)) + C at h2
  rw [h1, h2]
  ring

/-- and with `alpha`, one for each column and common to the rows -/
example (s : ExpState (GMCIx 1 2)) :
    let alpha := fun R => alphaPhi (fun p : Unit × Fin 2 => (p.1, ())) (id : Fin 2 ⊕ Fin 1 → _) (fun _ _ => 2) (fun _ _ => 3)
      (fun _ _ => ![0, 0]) fun p => (chainRotateA R R⁻¹ (slogdet R) (fun _ : Unit => exRow) p).u
    let total := fun R => chainTerm exInitial (unitDyn fun _ d => (chainRotateA R R⁻¹ (slogdet R) (fun _ : Unit => exRow) ((), d)).u) exInput
        (gmcRotate R (some R⁻¹) (some (slogdet R)) s)
      + ((∑ p : Unit × Fin 2, ardTerm (fun i => wrap0 ![0, 0] (gammaMoments (alpha R ((), ()) i.1)) i.2)
          (chainRotateA R R⁻¹ (slogdet R) (fun _ => exRow) p))
        + ∑ q, ∑ k, gammaTerm (gammaPriorFixed 2) (gammaFixed 3) (alpha R q k))
    let b := chainBlock 2 1 (chainSetup (fun _ : Unit => s.u) (fun _ => exInitial) (fun _ _ d => (exRow d).u) fun _ => exInput)
      (ardBlockQ true 1 2 1 2 1 (fun _ : Unit => ()) (fun _ : Fin 2 => ()) id (fun _ _ => 3) 2 3
        (ardSetupQ (fun _ => ()) (fun _ => ()) (fun _ l => (exRow l).u) fun _ _ i => wrap0 ![0, 0] ![7, 0] i.2))
    total exShear - total 1 = (b.bound exShear (slogdet exShear) exShear⁻¹).1 - (b.bound 1 (slogdet (1 : Matrix (Fin 2) (Fin 2) ℝ)) 1⁻¹).1 := by
  intro alpha total b
  obtain ⟨C, h⟩ := C66_chain_block (P := Unit) (B := Unit) (fun _ _ => ()) (fun _ => exInitial) (fun _ => exInitial_symm) (fun _ => exInput)
    (fun _ => s) (fun _ => exRow) (fun _ => exRow_consistent) (fun _ => exRow_posDef) true (fun _ => ()) (fun _ => ()) id
    (rB := 1) (rL := 2) (rK := 1) (by decide) (by decide) (fun _ _ => 3) 2 3 (by norm_num) (by norm_num) (fun _ _ _ => ![0, 0])
    (by simp) (fun _ _ => ![7, 0]) (by simp)
  have h1 := h exShear exShear_det exShear_colSum
  have h2 := h 1 (by rw [det_one]; exact one_ne_zero) colSum_one
  simp only [Fintype.sum_unique (fun p : Unit => chainTerm _ _ _ _)] at h1 h2
  change total exShear = (b.bound exShear (slogdet exShear) exShear⁻¹).1 + C at h1
  change total 1 = (b.bound 1 (slogdet (1 : Matrix (Fin 2) (Fin 2) ℝ)) 1⁻¹).1 + C at h2
  rw [h1, h2]
  ring

/-- the rows alone with a fixed `alpha`, for a rotation of the rows which is not the inverse of the rotation of the columns -/
example : ∃ C, ∀ (R : Matrix (Fin 2 ⊕ Fin 1) (Fin 2 ⊕ Fin 1) ℝ) (Q : Matrix (Fin 2) (Fin 2) ℝ), R.det ≠ 0 → (∀ l, colSum Q l ≠ 0) →
    ∑ p : Unit × Fin 2, ardTerm (fun i => wrap0 ![1, 1] ![7, 0] i.2) (rotatedRows R Q (fun _ => exRow) p)
      = ardBoundFixedQ 1 id (fun _ _ => 7) (ardSumsQ false (fun _ : Unit => ()) (fun _ : Fin 2 => ()) (ardSetupQ (fun _ => ()) (fun _ => ())
          (fun _ l => (exRow l).u) fun _ _ i => wrap0 ![1, 1] ![7, 0] i.2) Q) R (slogdet R) Q + C :=
  C66_ard_plates_fixed false (fun _ => ()) (fun _ => ()) id (fun _ _ _ => ![1, 1]) (fun _ _ => ![7, 0]) (by simp) (fun _ => exRow)
    (fun _ => exRow_consistent) fun _ => exRow_posDef

end

end Verif
