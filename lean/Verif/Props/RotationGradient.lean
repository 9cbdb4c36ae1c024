import Verif.Props.RotationBound
import Verif.Lemmas.MatrixDeriv

/-!
# C59: the gradient of the rotation cost
-/

namespace Verif
open Spec Matrix Filter Topology

section
variable {ι : Type*} [Fintype ι] [DecidableEq ι]

/-- a curve of matrices with the derivative `E` at zero -/
def Spec.CurveDeriv (γ : ℝ → Matrix ι ι ℝ) (E : Matrix ι ι ℝ) : Prop := ∀ i j, HasDerivAt (fun t => γ t i j) (E i j) 0

/-- the second component of `bound` is the gradient of the first, when `logdet` and `inv` belong to the matrix -/
def Spec.BlockGradient (b : RotationBlock ι) : Prop :=
  ∀ (γ : ℝ → Matrix ι ι ℝ) (E : Matrix ι ι ℝ), CurveDeriv γ E → (γ 0).det ≠ 0 →
    HasDerivAt (fun t => (b.bound (γ t) (slogdet (γ t)) (γ t)⁻¹).1)
      (frob (b.bound (γ 0) (slogdet (γ 0)) (γ 0)⁻¹).2 E) 0

theorem curve_line (R E : Matrix ι ι ℝ) : CurveDeriv (fun t => R + t • E) E := by
  intro i j
  have := ((hasDerivAt_id (0 : ℝ)).mul_const (E i j)).const_add (R i j)
  exact hasDerivAt_of_eq this (fun t => rfl) (by simp)

theorem differentiable_det : Differentiable ℝ fun A : ι → ι → ℝ => (Matrix.of A).det := by
  simp only [det_apply, of_apply]
  fun_prop

theorem hasDerivAt_slogdet {γ : ℝ → Matrix ι ι ℝ} {E : Matrix ι ι ℝ} (h : CurveDeriv γ E) (h0 : (γ 0).det ≠ 0) :
    HasDerivAt (fun t => slogdet (γ t)) (((γ 0)⁻¹ * E).trace) 0 := by
  have hf := (differentiable_det (ι := ι) (γ 0)).hasFDerivAt
  have hγ : HasDerivAt (F := ι → ι → ℝ) γ E 0 := hasDerivAt_pi.2 fun i => hasDerivAt_pi.2 fun j => h i j
  have h1 : HasDerivAt (fun t => (γ t).det) _ 0 := hf.comp_hasDerivAt (0 : ℝ) hγ
  let line : ℝ → ι → ι → ℝ := fun t => γ 0 + t • E
  have hl : HasDerivAt line E 0 := hasDerivAt_pi.2 fun i => hasDerivAt_pi.2 fun j => curve_line (γ 0) E i j
  have l0 : line 0 = γ 0 := by
    change γ 0 + (0 : ℝ) • E = γ 0
    rw [zero_smul, add_zero]
  rw [← l0] at hf
  have h2 : HasDerivAt (fun t : ℝ => (γ 0 + t • E).det) _ 0 := hf.comp_hasDerivAt (0 : ℝ) hl
  have e : (fun t : ℝ => (γ 0 + t • E).det) = fun t : ℝ => (γ 0).det * (1 + t • ((γ 0)⁻¹ * E)).det := by
    funext t
    rw [← Matrix.det_mul, Matrix.mul_add, Matrix.mul_one, Matrix.mul_smul, Matrix.mul_nonsing_inv_cancel_left _ E h0.isUnit]
  have h3 : HasDerivAt (fun t : ℝ => (γ 0 + t • E).det) ((γ 0).det * ((γ 0)⁻¹ * E).trace) 0 := by
    rw [e]
    exact (hasDerivAt_det_one_add _).const_mul _
  rw [l0] at h2
  rw [h2.unique h3] at h1
  have h4 := h1.log h0
  rwa [mul_div_cancel_left₀ _ h0] at h4

end

section
variable {P A ι K : Type*} [Fintype P] [Fintype A] [Fintype ι] [Fintype K] [DecidableEq A] [DecidableEq K] [DecidableEq ι]

omit [Fintype A] [DecidableEq A] [DecidableEq ι] in
theorem hasDerivAt_squares (S : ArdSums A ι) (hS : ∀ q, (S.XX q)ᵀ = S.XX q) {γ : ℝ → Matrix ι ι ℝ} {E : Matrix ι ι ℝ}
    (h : CurveDeriv γ E) (q : A) (i : ι) :
    HasDerivAt (fun t => ardSquares S (γ t) q i) (∑ j, ardDSquares S (γ 0) q i j * E i j) 0 := by
  have h1 : ∀ k, HasDerivAt (fun t => (γ t * S.XX q) i k) ((E * S.XX q) i k) 0 := by
    intro k
    simp only [Matrix.mul_apply]
    exact HasDerivAt.fun_sum fun l _ => (h i l).mul_const _
  have h2 : HasDerivAt (fun t => ∑ k, (γ t * S.XX q) i k * γ t i k)
      (∑ k, ((E * S.XX q) i k * γ 0 i k + (γ 0 * S.XX q) i k * E i k)) 0 :=
    HasDerivAt.fun_sum fun k _ => (h1 k).mul (h i k)
  have h3 : HasDerivAt (fun t => ∑ k, γ t i k * S.Xmu q k i) (∑ k, E i k * S.Xmu q k i) 0 :=
    HasDerivAt.fun_sum fun k _ => (h i k).mul_const _
  have := (h2.sub (h3.const_mul 2)).add_const (S.mu2 q i)
  refine hasDerivAt_of_eq this (fun t => rfl) ?_
  have e : ∑ k, (E * S.XX q) i k * γ 0 i k = ∑ k, (γ 0 * S.XX q) i k * E i k := by
    simp only [Matrix.mul_apply, Finset.sum_mul]
    rw [Finset.sum_comm]
    refine Finset.sum_congr rfl fun l _ => Finset.sum_congr rfl fun k _ => ?_
    have : S.XX q k l = S.XX q l k := congrFun (congrFun (hS q) l) k
    rw [this]
    ring
  rw [Finset.sum_add_distrib, e, Finset.mul_sum, ← Finset.sum_add_distrib, ← Finset.sum_sub_distrib]
  refine Finset.sum_congr rfl fun j _ => ?_
  simp only [ardDSquares, Matrix.sub_apply, Matrix.smul_apply, transpose_apply, smul_eq_mul]
  ring

omit [DecidableEq ι] in
/-- the pairing with a direction -/
theorem frob_grad (c : ℝ) (V E : Matrix ι ι ℝ) (w : A → ι → ι → ℝ) :
    frob (fun i j => c * V j i + ∑ q, w q i j) E = c * (V * E).trace + ∑ q, ∑ i, ∑ j, w q i j * E i j := by
  have e1 : (V * E).trace = ∑ i, ∑ j, V j i * E i j := by
    rw [Matrix.trace]
    simp only [Matrix.diag_apply, Matrix.mul_apply]
    exact Finset.sum_comm
  rw [e1, Finset.mul_sum, Finset.sum_comm (s := Finset.univ (α := A)), ← Finset.sum_add_distrib]
  unfold frob
  refine Finset.sum_congr rfl fun i _ => ?_
  rw [Finset.mul_sum, Finset.sum_comm (s := Finset.univ (α := A)), ← Finset.sum_add_distrib]
  refine Finset.sum_congr rfl fun j _ => ?_
  rw [add_mul, Finset.sum_mul, mul_assoc]

/-- **C59** without `alpha`: the gradient of the bound is the one returned -/
theorem C59_ard_fixed (nP : ℕ) (κ : ι → K) (alpha : A → K → ℝ) (S : ArdSums A ι) (hS : ∀ q, (S.XX q)ᵀ = S.XX q) :
    BlockGradient ⟨fun R l V => (ardBoundFixed nP κ alpha S R l, ardGradFixed nP κ alpha S R V)⟩ := by
  intro γ E h h0
  have h1 : HasDerivAt (fun t => ∑ q, ∑ i, ardSquares S (γ t) q i * alpha q (κ i))
      (∑ q, ∑ i, (∑ j, ardDSquares S (γ 0) q i j * E i j) * alpha q (κ i)) 0 :=
    HasDerivAt.fun_sum fun q _ => HasDerivAt.fun_sum fun i _ => (hasDerivAt_squares S hS h q i).mul_const _
  have h2 := ((h1.const_mul (-0.5 : ℝ))).add ((hasDerivAt_slogdet h h0).const_mul (nP : ℝ))
  refine hasDerivAt_of_eq h2 (fun t => ?_) ?_
  · simp only [ardBoundFixed, gaussianEntropy, gaussianLogpdf, Pi.add_apply]
    ring
  · have e : ardGradFixed nP κ alpha S (γ 0) (γ 0)⁻¹
        = fun i j => nP * (γ 0)⁻¹ j i + ∑ q, -0.5 * (alpha q (κ i) * ardDSquares S (γ 0) q i j) := by
      funext i j
      simp only [ardGradFixed, gaussianEntropy, gaussianLogpdf, transpose_apply, ← Finset.mul_sum]
      ring
    change frob (ardGradFixed nP κ alpha S (γ 0) (γ 0)⁻¹) E = _
    rw [e, frob_grad, add_comm]
    congr 1
    rw [Finset.mul_sum]
    refine Finset.sum_congr rfl fun q _ => ?_
    rw [Finset.mul_sum]
    refine Finset.sum_congr rfl fun i _ => ?_
    rw [Finset.sum_mul, Finset.mul_sum]
    exact Finset.sum_congr rfl fun j _ => by ring

/-- the gradient which is returned, where the rates are not zero -/
theorem ardGradUpdate_eq (nP r rK : ℕ) (κ : ι → K) (a : A → K → ℝ) (a0 : K → ℝ) (b0 : A → K → ℝ) (S : ArdSums A ι)
    (R V : Matrix ι ι ℝ) (hb : ∀ q k, ardRate κ b0 S R q k ≠ 0) :
    ardGradUpdate nP r rK κ a a0 b0 S R V
      = fun i j => nP * V j i + ∑ q, -((a0 (κ j) + 0.5 * (r * rK : ℕ)) / ardRate κ b0 S R q (κ i) * (0.5 * ardDSquares S R q i j)) := by
  funext i j
  have e : ∀ q, -0.5 * (a q (κ i) / ardRate κ b0 S R q (κ i) * ardDSquares S R q i j
      + (∑ i' with κ i' = κ i, ardSquares S R q i') * (a q (κ i) / ardRate κ b0 S R q (κ i)) * (-1 / ardRate κ b0 S R q (κ i))
        * (0.5 * ardDSquares S R q i j))
      + 0.5 * (r * (-(1 / ardRate κ b0 S R q (κ i) * (0.5 * ardDSquares S R q i j))) * rK)
      + (a0 (κ j) * -(1 / ardRate κ b0 S R q (κ i) * (0.5 * ardDSquares S R q i j))
        - b0 q (κ i) * (a q (κ i) / ardRate κ b0 S R q (κ i)) * (-1 / ardRate κ b0 S R q (κ i)) * (0.5 * ardDSquares S R q i j))
      = -((a0 (κ j) + 0.5 * (r * rK : ℕ)) / ardRate κ b0 S R q (κ i) * (0.5 * ardDSquares S R q i j)) := by
    intro q
    have hs : ∑ i' with κ i' = κ i, ardSquares S R q i' = 2 * ardRate κ b0 S R q (κ i) - 2 * b0 q (κ i) := by
      unfold ardRate
      ring
    have := hb q (κ i)
    rw [hs]
    push_cast
    field_simp
    ring
  rw [← Finset.sum_congr rfl fun q _ => e q]
  simp only [ardGradUpdate, gaussianEntropy, gaussianLogpdf, gammaLogpdf, transpose_apply, Finset.sum_add_distrib,
    Finset.sum_sub_distrib, ← Finset.mul_sum, ← Finset.sum_mul]
  ring

theorem hasDerivAt_rate (κ : ι → K) (b0 : A → K → ℝ) (S : ArdSums A ι) (hS : ∀ q, (S.XX q)ᵀ = S.XX q)
    {γ : ℝ → Matrix ι ι ℝ} {E : Matrix ι ι ℝ} (h : CurveDeriv γ E) (q : A) (k : K) :
    HasDerivAt (fun t => ardRate κ b0 S (γ t) q k) (0.5 * ∑ i with κ i = k, ∑ j, ardDSquares S (γ 0) q i j * E i j) 0 := by
  have h1 : HasDerivAt (fun t => ∑ i with κ i = k, ardSquares S (γ t) q i)
      (∑ i with κ i = k, ∑ j, ardDSquares S (γ 0) q i j * E i j) 0 :=
    HasDerivAt.fun_sum fun i _ => hasDerivAt_squares S hS h q i
  exact (h1.const_mul _).const_add _

/-- the derivative of the bound with `alpha` -/
theorem hasDerivAt_boundUpdate (nP r rK : ℕ) (κ : ι → K) (a a0 b0 : A → K → ℝ) (S : ArdSums A ι)
    (hS : ∀ q, (S.XX q)ᵀ = S.XX q) {γ : ℝ → Matrix ι ι ℝ} {E : Matrix ι ι ℝ} (h : CurveDeriv γ E) (h0 : (γ 0).det ≠ 0)
    (hb : ∀ q k, ardRate κ b0 S (γ 0) q k ≠ 0) :
    HasDerivAt (fun t => ardBoundUpdate nP r rK κ a a0 b0 S (γ t) (slogdet (γ t)))
      (frob (fun i j => nP * (γ 0)⁻¹ j i + ∑ q, -((a0 q (κ i) + 0.5 * (r * rK : ℕ)) / ardRate κ b0 S (γ 0) q (κ i)
        * (0.5 * ardDSquares S (γ 0) q i j))) E) 0 := by
  have hev : ∀ᶠ t in 𝓝 (0 : ℝ), ∀ q k, ardRate κ b0 S (γ t) q k ≠ 0 :=
    eventually_all.2 fun q => eventually_all.2 fun k =>
      (hasDerivAt_rate κ b0 S hS h q k).continuousAt.eventually_ne (hb q k)
  have h1 : HasDerivAt (fun t => ∑ q, ∑ k, (a0 q k + 0.5 * (r * rK : ℕ)) * Real.log (ardRate κ b0 S (γ t) q k))
      (∑ q, ∑ k, (a0 q k + 0.5 * (r * rK : ℕ)) * ((0.5 * ∑ i with κ i = k, ∑ j, ardDSquares S (γ 0) q i j * E i j)
        / ardRate κ b0 S (γ 0) q k)) 0 :=
    HasDerivAt.fun_sum fun q _ => HasDerivAt.fun_sum fun k _ => ((hasDerivAt_rate κ b0 S hS h q k).log (hb q k)).const_mul _
  have h2 := (((hasDerivAt_slogdet h h0).const_mul (nP : ℝ)).sub_const (∑ q, ∑ k, a q k)).sub h1
  have h3 := h2.congr_of_eventuallyEq (f₁ := fun t => ardBoundUpdate nP r rK κ a a0 b0 S (γ t) (slogdet (γ t))) (by
    filter_upwards [hev] with t ht
    rw [ardBoundUpdate_eq _ _ _ _ _ _ _ _ _ _ ht]
    rfl)
  refine hasDerivAt_of_eq h3 (fun t => rfl) ?_
  rw [frob_grad, sub_eq_add_neg, ← Finset.sum_neg_distrib]
  congr 1
  refine Finset.sum_congr rfl fun q _ => ?_
  rw [← Finset.sum_fiberwise Finset.univ κ, ← Finset.sum_neg_distrib]
  refine Finset.sum_congr rfl fun k _ => ?_
  rw [Finset.mul_sum, Finset.sum_div, Finset.mul_sum, ← Finset.sum_neg_distrib]
  refine Finset.sum_congr rfl fun i hi => ?_
  rw [(Finset.mem_filter.1 hi).2, Finset.mul_sum, Finset.sum_div, Finset.mul_sum, ← Finset.sum_neg_distrib]
  exact Finset.sum_congr rfl fun j _ => by ring

/-- **C59** with `alpha`: the gradient of the bound is the one returned, when the prior shape is the same for all elements
of the rotated axis -/
theorem C59_ard_update (nP r rK : ℕ) (κ : ι → K) (a : A → K → ℝ) (a0 : ℝ) (b0 : A → K → ℝ) (S : ArdSums A ι)
    (hS : ∀ q, (S.XX q)ᵀ = S.XX q) (hb : ∀ R : Matrix ι ι ℝ, R.det ≠ 0 → ∀ q k, ardRate κ b0 S R q k ≠ 0) :
    BlockGradient ⟨fun R l V => (ardBoundUpdate nP r rK κ a (fun _ _ => a0) b0 S R l,
      ardGradUpdate nP r rK κ a (fun _ => a0) b0 S R V)⟩ := by
  intro γ E h h0
  have := hasDerivAt_boundUpdate nP r rK κ a (fun _ _ => a0) b0 S hS h h0 (hb _ h0)
  refine hasDerivAt_of_eq this (fun t => rfl) ?_
  change frob (ardGradUpdate nP r rK κ a (fun _ => a0) b0 S (γ 0) (γ 0)⁻¹) E = _
  rw [ardGradUpdate_eq _ _ _ _ _ _ _ _ _ _ (hb _ h0)]

end

section
variable {ι : Type*} [Fintype ι] [DecidableEq ι]

theorem trace_three (V B E : Matrix ι ι ℝ) : frob B (-(V * E * V))ᵀ = frob (-(Vᵀ * Bᵀ * Vᵀ)) E := by
  rw [frob_eq_trace, frob_eq_trace, transpose_neg, transpose_neg, Matrix.mul_neg, Matrix.neg_mul, trace_neg, trace_neg,
    transpose_mul, transpose_mul, transpose_mul, transpose_mul, transpose_transpose, transpose_transpose]
  congr 1
  rw [← trace_transpose]
  simp only [transpose_mul, transpose_transpose]
  rw [Matrix.mul_assoc (V * E), trace_mul_comm, ← Matrix.mul_assoc, ← Matrix.mul_assoc]

/-- **C59** The cost of `RotationOptimizer`: its second component is the gradient of the first, for any two blocks whose
gradients are right. -/
theorem C59_cost (b1 b2 : RotationBlock ι) (h1 : BlockGradient b1) (h2 : BlockGradient b2) (R E : Matrix ι ι ℝ) (hR : R.det ≠ 0) :
    HasDerivAt (fun t : ℝ => (rotationCost b1 b2 (R + t • E)).1) (frob (rotationCost b1 b2 R).2 E) 0 := by
  have z : R + (0 : ℝ) • E = R := by rw [zero_smul, add_zero]
  have c1 := h1 (fun t => R + t • E) E (curve_line R E) (by simpa using hR)
  have hc : CurveDeriv (fun t : ℝ => (R + t • E)⁻¹ᵀ) (-(R⁻¹ * E * R⁻¹))ᵀ :=
    fun i j => hasDerivAt_inv_entry R E hR.isUnit j i
  have c2 := h2 _ _ hc (by simpa using (C46_opposite_args R hR).1)
  have ev : ∀ᶠ t : ℝ in 𝓝 0, IsUnit (R + t • E).det := eventually_isUnit_line R E hR.isUnit
  have key : ∀ A : Matrix ι ι ℝ, A.det ≠ 0 → slogdet A⁻¹ᵀ = -slogdet A ∧ A⁻¹ᵀ⁻¹ = Aᵀ := by
    intro A hA
    constructor
    · unfold slogdet
      rw [det_transpose, det_nonsing_inv, Ring.inverse_eq_inv', Real.log_inv]
    · rw [← transpose_nonsing_inv, nonsing_inv_nonsing_inv _ hA.isUnit]
  have c3 := (c1.add c2).neg
  have c4 := c3.congr_of_eventuallyEq (f₁ := fun t : ℝ => (rotationCost b1 b2 (R + t • E)).1) (by
    filter_upwards [ev] with t ht
    obtain ⟨k1, k2⟩ := key _ ht.ne_zero
    change -((b1.bound (R + t • E) (slogdet (R + t • E)) (R + t • E)⁻¹).1
      + (b2.bound (R + t • E)⁻¹ᵀ (-slogdet (R + t • E)) (R + t • E)ᵀ).1) = _
    rw [← k1, ← k2]
    rfl)
  refine hasDerivAt_of_eq c4 (fun t => rfl) ?_
  simp only [z]
  obtain ⟨k1, k2⟩ := key R hR
  rw [k1, k2, trace_three]
  change frob (-((b1.bound R (slogdet R) R⁻¹).2 + -(R⁻¹ᵀ * (b2.bound R⁻¹ᵀ (-slogdet R) Rᵀ).2ᵀ * R⁻¹ᵀ))) E = _
  simp only [frob, Matrix.neg_apply, Matrix.add_apply, neg_mul, add_mul, Finset.sum_neg_distrib, Finset.sum_add_distrib]

end

/-! ### factor analysis -/

section
variable (P : FAParams)

theorem sum_symm {Q ι : Type*} [Fintype ι] (F : Finset Q) (u : Q → GIx ι → ℝ) (h : ∀ p, SecondMoment (u p)) :
    (∑ p ∈ F, g1 (u p))ᵀ = ∑ p ∈ F, g1 (u p) := by
  rw [transpose_sum]
  refine Finset.sum_congr rfl fun p _ => ?_
  have := (h p).posSemidef.isHermitian
  rwa [IsHermitian, conjTranspose_eq_transpose_of_trivial] at this

theorem setup_symm {Q A ι : Type*} [Fintype Q] [Fintype A] [DecidableEq A] [Fintype ι] (π : Q → A) (u : Q → GIx ι → ℝ)
    (v : Q → ι × Fin 4 → ℝ) (h : ∀ p, SecondMoment (u p)) (q : A) : ((ardSetup π u v).XX q)ᵀ = (ardSetup π u v).XX q :=
  sum_symm _ _ h

theorem faBlockX_gradient (data : Fin P.M → Fin P.N → ℝ) (s : (faNet P).State) (hs : FAState P data s) :
    BlockGradient (faBlockX P s) :=
  C59_ard_fixed (A := Fin P.N) (ι := Fin P.D) (K := Fin P.D) P.N id _ _
    fun q => setup_symm (Q := Fin P.N) id _ _ (fa_second_x P s hs.1) q

theorem faW_symm (data : Fin P.M → Fin P.N → ℝ) (s : (faNet P).State) (hs : FAState P data s) (q : Unit) :
    ((ardSetup (P := Fin P.M) (ι := Fin P.D) (fun _ => ()) (s.u FA.w) fun i => faSlot P .w () s.u i).XX q)ᵀ
      = (ardSetup (P := Fin P.M) (ι := Fin P.D) (fun _ => ()) (s.u FA.w) fun i => faSlot P .w () s.u i).XX q :=
  setup_symm (Q := Fin P.M) _ _ _ (fa_second_w P s hs.1) q

theorem faW_rate (data : Fin P.M → Fin P.N → ℝ) (hP : FAValid P) (s : (faNet P).State) (hs : FAState P data s)
    (R : Matrix (Fin P.D) (Fin P.D) ℝ) (q : Unit) (k : Fin P.D) :
    ardRate id (fun _ => P.b0)
      (ardSetup (P := Fin P.M) (ι := Fin P.D) (fun _ => ()) (s.u FA.w) fun i => faSlot P .w () s.u i) R q k ≠ 0 := by
  have hal : ∀ d : Fin P.D, 0 < s.u FA.alpha d (0 : Fin 2) := by
    intro d
    obtain ⟨da, ea, -⟩ := hs.1 FA.alpha d rfl
    have ea' : s.u FA.alpha d = gammaMoments (s.phi FA.alpha d) := ea
    rw [ea']
    exact div_pos da.2 (neg_pos.2 da.1)
  exact (ardRate_pos (P := Fin P.M) (A := Unit) (fun _ => ()) id (fun _ => P.b0) (fun _ => hP.2.1) (fun i d => fixed0 (P.muW i d))
    (fun i d => le_of_eq (sq _)) (fun _ d => s.u FA.alpha d) (fun _ => hal)
    (fun i => ⟨s.u FA.w i, s.phi FA.w i, s.g FA.w i⟩) (fun i => fa_second_w P s hs.1 i) R q k).ne'

/-- **C59** in factor analysis with the same prior shape for all components: what the cost function returns to the optimiser
is its gradient, at every invertible matrix and in every state. -/
theorem C59_factor_model (data : Fin P.M → Fin P.N → ℝ) (hP : FAValid P) (c : ℝ) (hc : P.a0 = fun _ => c)
    (s : (faNet P).State) (hs : FAState P data s) (R E : Matrix (Fin P.D) (Fin P.D) ℝ) (hR : R.det ≠ 0) :
    HasDerivAt (fun t : ℝ => faCost P s (R + t • E)) (frob (rotationCost (faBlockX P s) (faBlockW P s) R).2 E) 0 := by
  refine C59_cost (faBlockX P s) (faBlockW P s) (faBlockX_gradient P data s hs) ?_ R E hR
  have h := C59_ard_update P.M P.M 1 id (fun (_ : Unit) (d : Fin P.D) => s.phi FA.alpha d (1 : Fin 2)) c (fun _ => P.b0) _
    (faW_symm P data s hs) fun R _ => faW_rate P data hP s hs R
  have e : faBlockW P s = ⟨fun R l V => (ardBoundUpdate P.M P.M 1 id (fun (_ : Unit) (d : Fin P.D) => s.phi FA.alpha d (1 : Fin 2)) (fun _ _ => c)
      (fun _ => P.b0) (ardSetup (P := Fin P.M) (ι := Fin P.D) (fun _ => ()) (s.u FA.w) fun i => faSlot P .w () s.u i) R l,
      ardGradUpdate P.M P.M 1 id (fun (_ : Unit) (d : Fin P.D) => s.phi FA.alpha d (1 : Fin 2)) (fun _ => c) (fun _ => P.b0)
        (ardSetup (P := Fin P.M) (ι := Fin P.D) (fun _ => ()) (s.u FA.w) fun i => faSlot P .w () s.u i) R V)⟩ := by
    unfold faBlockW
    rw [hc]
  rw [e]
  exact h

/-- an example: three rows, two columns, two factors, one value missing -/
example : HasDerivAt (fun t : ℝ => faCost exFA (faInit exFA (fun i j => i + j) (fun _ _ => 1) fun _ _ => 0) (1 + t • (Matrix.of fun _ _ => 1)))
    (frob (rotationCost (faBlockX exFA (faInit exFA (fun i j => i + j) (fun _ _ => 1) fun _ _ => 0))
      (faBlockW exFA (faInit exFA (fun i j => i + j) (fun _ _ => 1) fun _ _ => 0)) 1).2 (Matrix.of fun _ _ => 1)) 0 :=
  C59_factor_model exFA (fun i j => i + j) exFA_valid 1 rfl _ (faInit_state exFA _ _ _) 1 _ (by rw [det_one]; exact one_ne_zero)

/-- the block with the gradient as it should be, also when the prior shapes differ -/
noncomputable def Spec.faBlockW' (s : (faNet P).State) : RotationBlock (Fin P.D) where
  bound := fun R l V =>
    let S := ardSetup (P := Fin P.M) (ι := Fin P.D) (fun _ => ()) (s.u FA.w) fun i => faSlot P .w () s.u i
    (((faBlockW P s).bound R l V).1, fun i j => P.M * V j i + ∑ q : Unit, -((P.a0 i + 0.5 * (P.M * 1 : ℕ))
      / ardRate id (fun _ => P.b0) S R q i * (0.5 * ardDSquares S R q i j)))

theorem faBlockW'_gradient (data : Fin P.M → Fin P.N → ℝ) (hP : FAValid P) (s : (faNet P).State) (hs : FAState P data s) :
    BlockGradient (faBlockW' P s) :=
  fun _ _ h h0 => hasDerivAt_boundUpdate P.M P.M 1 id (fun (_ : Unit) (d : Fin P.D) => s.phi FA.alpha d (1 : Fin 2)) (fun _ => P.a0)
    (fun _ => P.b0) _ (faW_symm P data s hs) h h0 (faW_rate P data hP s hs _)

/-- the difference of the gradients -/
theorem faBlockW_diff (data : Fin P.M → Fin P.N → ℝ) (hP : FAValid P) (s : (faNet P).State) (hs : FAState P data s)
    (R V : Matrix (Fin P.D) (Fin P.D) ℝ) (l : ℝ) (i j : Fin P.D) :
    ((faBlockW' P s).bound R l V).2 i j - ((faBlockW P s).bound R l V).2 i j
      = (P.a0 j - P.a0 i) / ardRate id (fun _ => P.b0)
        (ardSetup (P := Fin P.M) (ι := Fin P.D) (fun _ => ()) (s.u FA.w) fun i => faSlot P .w () s.u i) R () i
        * (0.5 * ardDSquares (ardSetup (P := Fin P.M) (ι := Fin P.D) (fun _ => ()) (s.u FA.w) fun i => faSlot P .w () s.u i) R () i j) := by
  have e := congrFun (congrFun (ardGradUpdate_eq P.M P.M 1 id (fun (_ : Unit) (d : Fin P.D) => s.phi FA.alpha d (1 : Fin 2)) P.a0
    (fun _ => P.b0) _ R V (faW_rate P data hP s hs _)) i) j
  refine (congrArg (fun z => ((faBlockW' P s).bound R l V).2 i j - z) e).trans ?_
  simp only [faBlockW', Finset.univ_unique, Finset.sum_singleton, id]
  ring

end

/-- one row, one column and two factors with different prior shapes -/
def exFA2 : FAParams where
  M := 1
  N := 1
  D := 2
  a0 := fun d => d + 1
  b0 := fun _ => 1
  muW := fun _ _ => 0
  muX := fun _ _ => 0
  alphaX := fun _ _ => 1
  at' := 1
  bt := 1
  mask := fun _ _ => true

theorem exFA2_valid : FAValid exFA2 := by
  refine ⟨fun d => ?_, fun _ => one_pos, fun _ _ => one_pos, one_pos, one_pos⟩
  change (0 : ℝ) < (d : ℕ) + 1
  positivity

noncomputable def exFA2State : (faNet exFA2).State := faInit exFA2 (fun _ _ => 0) (fun _ _ => 1) fun _ _ => 0

theorem cost_wrong (b1 b2 b2' : RotationBlock (Fin 2)) (h1 : BlockGradient b1) (h2 : BlockGradient b2')
    (hb : ∀ R l V, (b2.bound R l V).1 = (b2'.bound R l V).1) (hd : (b2'.bound 1 0 1).2 1 0 ≠ (b2.bound 1 0 1).2 1 0) :
    ¬HasDerivAt (fun t : ℝ => (rotationCost b1 b2 (1 + t • Matrix.of ![![0, 1], ![0, 0]])).1)
      (frob (rotationCost b1 b2 1).2 (Matrix.of ![![0, 1], ![0, 0]])) 0 := by
  intro h
  have h' := C59_cost b1 b2' h1 h2 1 (Matrix.of ![![0, 1], ![0, 0]]) (by rw [det_one]; exact one_ne_zero)
  have ef : (fun t : ℝ => (rotationCost b1 b2 (1 + t • Matrix.of ![![0, 1], ![0, 0]])).1)
      = fun t : ℝ => (rotationCost b1 b2' (1 + t • Matrix.of ![![0, 1], ![0, 0]])).1 := by
    funext t
    simp only [rotationCost, hb]
  rw [ef] at h
  have e := h.unique h'
  have hl : slogdet (1 : Matrix (Fin 2) (Fin 2) ℝ) = 0 := by simp [slogdet]
  refine hd ?_
  simp only [rotationCost, frob, Fin.sum_univ_two, hl, inv_one, transpose_one, neg_zero, Matrix.one_mul, Matrix.mul_one,
    Matrix.neg_apply, Matrix.add_apply, transpose_apply, of_apply, cons_val_zero, cons_val_one, mul_zero, mul_one, add_zero,
    zero_add] at e
  linarith

theorem unit_second_two : g1 (gaussianMoments (mkG (fun _ => 1) (-(1 / 2 : ℝ) • (1 : Matrix (Fin 2) (Fin 2) ℝ)))) 1 0 = 1 := by
  have e : (-2 : ℝ) • (-(1 / 2 : ℝ) • (1 : Matrix (Fin 2) (Fin 2) ℝ)) = 1 := by
    rw [smul_smul]; norm_num
  unfold gaussianMoments
  simp only [mkG_g0, mkG_g1, e, inv_one, one_mulVec, Matrix.add_apply, vecMulVec_apply]
  norm_num

theorem dsquares_two (u : Fin 1 → GIx (Fin 2) → ℝ) (hu : g1 (u 0) 1 0 = 1) (t : Fin 2 → Fin 2 → ℝ) :
    ardDSquares (ardSetup (A := Unit) (fun _ => ()) u fun _ i => wrap0 (fixed0 0) (t i.1) i.2) 1 () 1 0 = 2 := by
  have e0 : ∀ i, wrap0 (fixed0 0) (t i) 0 = 0 := fun i => by simp [wrap0, fixed0]
  simp only [ardDSquares, ardSetup, Matrix.one_mul, Finset.filter_true, Fin.sum_univ_one, Matrix.sub_apply, Matrix.smul_apply,
    transpose_apply, vecMulVec_apply, e0, hu]
  norm_num

/-- **C59** is violated when the prior shapes of `alpha` differ over the rotated axis: line 901 multiplies the columns
instead of the rows with them.  Here at the identity in the direction of one entry. -/
theorem C59_shape_refuted :
    FAState exFA2 (fun _ _ => 0) exFA2State ∧
    ¬HasDerivAt (fun t : ℝ => faCost exFA2 exFA2State ((1 + t • Matrix.of ![![0, 1], ![0, 0]] : Matrix (Fin 2) (Fin 2) ℝ)))
      (frob (rotationCost (faBlockX exFA2 exFA2State) (faBlockW exFA2 exFA2State) 1).2 (Matrix.of ![![0, 1], ![0, 0]])) 0 := by
  have hs : FAState exFA2 (fun _ _ => 0) exFA2State := faInit_state exFA2 _ _ _
  refine ⟨hs, cost_wrong (faBlockX exFA2 exFA2State) (faBlockW exFA2 exFA2State) (faBlockW' exFA2 exFA2State)
    (faBlockX_gradient exFA2 _ _ hs) (faBlockW'_gradient exFA2 _ exFA2_valid _ hs) (fun _ _ _ => rfl) ?_⟩
  have d := faBlockW_diff exFA2 _ exFA2_valid _ hs 1 1 0 (1 : Fin 2) (0 : Fin 2)
  have hr := faW_rate exFA2 _ exFA2_valid _ hs 1 () (1 : Fin 2)
  have hD := dsquares_two (exFA2State.u FA.w) unit_second_two (exFA2State.u FA.alpha)
  refine sub_ne_zero.1 ?_
  refine Eq.trans_ne d ?_
  refine mul_ne_zero (div_ne_zero ?_ hr) (mul_ne_zero (by norm_num) ?_)
  · change (((0 : Fin 2) : ℕ) + 1 : ℝ) - (((1 : Fin 2) : ℕ) + 1 : ℝ) ≠ 0
    norm_num
  · exact hD.trans_ne (by norm_num)

end Verif
