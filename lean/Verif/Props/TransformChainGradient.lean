import Verif.Props.TransformChain

/-!
# C67: the gradient of the rotation cost of Gaussian Markov chains
-/

namespace Verif
open Spec Matrix Filter Topology

section
variable {ι : Type*} [Fintype ι] [DecidableEq ι]

/-- the second component of `bound` is the gradient of the first at `R` -/
def Spec.BlockGradientAt (b : RotationBlock ι) (R : Matrix ι ι ℝ) : Prop :=
  ∀ (γ : ℝ → Matrix ι ι ℝ) (E : Matrix ι ι ℝ), CurveDeriv γ E → γ 0 = R →
    HasDerivAt (fun t => (b.bound (γ t) (slogdet (γ t)) (γ t)⁻¹).1) (frob (b.bound R (slogdet R) R⁻¹).2 E) 0

theorem BlockGradient.at {b : RotationBlock ι} (h : BlockGradient b) {R : Matrix ι ι ℝ} (hR : R.det ≠ 0) : BlockGradientAt b R := by
  intro γ E hγ h0
  have := h γ E hγ (by rw [h0]; exact hR)
  rwa [h0] at this

theorem differentiableAt_inv {A : ι → ι → ℝ} (hA : (Matrix.of A).det ≠ 0) (i j : ι) :
    DifferentiableAt ℝ (fun A : ι → ι → ℝ => (Matrix.of A)⁻¹ i j) A := by
  have e : (fun A : ι → ι → ℝ => (Matrix.of A)⁻¹ i j) = fun A => ((Matrix.of A).det)⁻¹ * (Matrix.of A).adjugate i j := by
    funext A
    rw [inv_def, Ring.inverse_eq_inv', Matrix.smul_apply, smul_eq_mul]
  rw [e]
  refine (DifferentiableAt.inv (differentiable_det A) hA).mul ?_
  simp only [adjugate_apply]
  have h : DifferentiableAt ℝ (fun B : ι → ι → ℝ => (fun B' : ι → ι → ℝ => (Matrix.of B').det) (Function.update B j (Pi.single i 1))) A := by
    refine DifferentiableAt.comp (g := fun B' : ι → ι → ℝ => (Matrix.of B').det) A (differentiable_det _) ?_
    refine differentiableAt_pi.2 fun k => ?_
    by_cases hk : k = j
    · subst hk
      simp only [Function.update_self]
      exact differentiableAt_const _
    · simp only [Function.update_of_ne hk]
      exact differentiableAt_apply k A
  exact h

/-- the inverse along a curve -/
theorem curve_inv {γ : ℝ → Matrix ι ι ℝ} {E : Matrix ι ι ℝ} (h : CurveDeriv γ E) (h0 : (γ 0).det ≠ 0) :
    CurveDeriv (fun t => (γ t)⁻¹) (-((γ 0)⁻¹ * E * (γ 0)⁻¹)) := by
  intro i j
  have hf := (differentiableAt_inv (A := γ 0) h0 i j).hasFDerivAt
  have hγ : HasDerivAt (F := ι → ι → ℝ) γ E 0 := hasDerivAt_pi.2 fun i => hasDerivAt_pi.2 fun j => h i j
  have h1 : HasDerivAt (fun t => (γ t)⁻¹ i j) _ 0 := hf.comp_hasDerivAt (0 : ℝ) hγ
  let line : ℝ → ι → ι → ℝ := fun t => γ 0 + t • E
  have hl : HasDerivAt line E 0 := hasDerivAt_pi.2 fun i => hasDerivAt_pi.2 fun j => curve_line (γ 0) E i j
  have l0 : line 0 = γ 0 := by
    change γ 0 + (0 : ℝ) • E = γ 0
    rw [zero_smul, add_zero]
  rw [← l0] at hf
  have h2 : HasDerivAt (fun t : ℝ => (γ 0 + t • E)⁻¹ i j) _ 0 := hf.comp_hasDerivAt (0 : ℝ) hl
  have h3 := hasDerivAt_inv_entry (γ 0) E h0.isUnit i j
  rw [l0] at h2
  rwa [h2.unique h3] at h1

/-- **C67** The cost of `RotationOptimizer`: its second component is the gradient of the first at a rotation where the gradients of the
two blocks are right. -/
theorem C67_cost (b1 b2 : RotationBlock ι) (R E : Matrix ι ι ℝ) (hR : R.det ≠ 0) (h1 : BlockGradientAt b1 R)
    (h2 : BlockGradientAt b2 R⁻¹ᵀ) :
    HasDerivAt (fun t : ℝ => (rotationCost b1 b2 (R + t • E)).1) (frob (rotationCost b1 b2 R).2 E) 0 := by
  have z : R + (0 : ℝ) • E = R := by rw [zero_smul, add_zero]
  have c1 := h1 (fun t => R + t • E) E (curve_line R E) z
  have hc : CurveDeriv (fun t : ℝ => (R + t • E)⁻¹ᵀ) (-(R⁻¹ * E * R⁻¹))ᵀ :=
    fun i j => hasDerivAt_inv_entry R E hR.isUnit j i
  have c2 := h2 _ _ hc (by simp only [z])
  have ev : ∀ᶠ t : ℝ in 𝓝 0, IsUnit (R + t • E).det := eventually_isUnit_line R E hR.isUnit
  have key : ∀ A : Matrix ι ι ℝ, A.det ≠ 0 → slogdet A⁻¹ᵀ = -slogdet A ∧ A⁻¹ᵀ⁻¹ = Aᵀ := by
    intro A hA
    constructor
    · unfold slogdet
      rw [det_transpose, det_nonsing_inv, Ring.inverse_eq_inv', Real.log_inv]
    · rw [← transpose_nonsing_inv, nonsing_inv_nonsing_inv _ hA.isUnit]
  have c3 := (c1.add c2).neg
  have c4 := c3.congr_of_eventuallyEq (f₁ := fun t : ℝ => (rotationCost b1 b2 (R + t • E)).1) (by
    filter_upwards [ev] with t ht
    obtain ⟨k1, k2⟩ := key _ ht.ne_zero
    change -((b1.bound (R + t • E) (slogdet (R + t • E)) (R + t • E)⁻¹).1
      + (b2.bound (R + t • E)⁻¹ᵀ (-slogdet (R + t • E)) (R + t • E)ᵀ).1) = _
    rw [← k1, ← k2]
    rfl)
  refine hasDerivAt_of_eq c4 (fun t => rfl) ?_
  obtain ⟨k1, k2⟩ := key R hR
  rw [k1, k2, trace_three]
  change frob (-((b1.bound R (slogdet R) R⁻¹).2 + -(R⁻¹ᵀ * (b2.bound R⁻¹ᵀ (-slogdet R) Rᵀ).2ᵀ * R⁻¹ᵀ))) E = _
  simp only [frob, Matrix.neg_apply, Matrix.add_apply, neg_mul, add_mul, Finset.sum_neg_distrib, Finset.sum_add_distrib]

end

/-! ### the gradient by the plate rotation -/

section
variable {B L A₁ A₂ ι K : Type*} [Fintype B] [Fintype L] [Fintype A₁] [Fintype A₂] [Fintype ι] [Fintype K]
  [DecidableEq A₁] [DecidableEq A₂] [DecidableEq K] [DecidableEq ι]

theorem hasDerivAt_colSum {δ : ℝ → Matrix L L ℝ} {F : Matrix L L ℝ} (h : ∀ i j, HasDerivAt (fun t => δ t i j) (F i j) 0) (l : L) :
    HasDerivAt (fun t => colSum (δ t) l) (colSum F l) 0 :=
  HasDerivAt.fun_sum fun i _ => h i l

omit [Fintype A₁] [Fintype A₂] [Fintype K] [DecidableEq A₂] [DecidableEq K] [DecidableEq ι] in
/-- both ways to compute `psi` give the same -/
theorem ardPsi_precompute [DecidableEq A₂] (πB : B → A₁) (πL : L → A₂) (κ : ι → K) (u : B → L → GIx ι → ℝ) (v : B → L → ι × Fin 4 → ℝ)
    (R : Matrix ι ι ℝ) (Q : Matrix L L ℝ) (p : Bool) (w : A₁ × A₂ → K → ℝ) :
    ardPsi p πB πL κ (ardSetupQ πB πL u v) R Q w = ardPsi false πB πL κ (ardSetupQ πB πL u v) R Q w := by
  cases p
  · rfl
  have e1 : ∀ (a : A₁) (k : ι) (i j : L), ∑ l, (∑ m, ∑ n, (∑ b with πB b = a, g0 (u b l) m * g0 (u b j) n) * R k m * R k n) * Q i l
      = ∑ b with πB b = a, (∑ l, Q i l * ∑ m, R k m * g0 (u b l) m) * ∑ n, R k n * g0 (u b j) n := by
    intro a k i j
    have e := fun c => sum_precompute (Finset.univ.filter fun b => πB b = a) (fun b m => g0 (u b c) m) (fun b n => g0 (u b j) n) (R k) (R k)
    rw [Finset.sum_congr rfl fun l _ => congrArg (· * Q i l) (e l)]
    simp only [Finset.sum_mul (Finset.univ.filter fun b => πB b = a)]
    rw [Finset.sum_comm]
    refine Finset.sum_congr rfl fun b _ => ?_
    rw [Finset.sum_mul]
    exact Finset.sum_congr rfl fun l _ => by ring
  have e2 : ∀ (a : A₁) (k : ι) (i j : L), ∑ l, R k l * (∑ b with πB b = a, g0 (u b j) l * (v b i (k, 0) / v b i (k, 2)))
      = ∑ b with πB b = a, (∑ l, R k l * g0 (u b j) l) * (v b i (k, 0) / v b i (k, 2)) := by
    intro a k i j
    simp only [Finset.mul_sum, Finset.sum_mul]
    rw [Finset.sum_comm]
    exact Finset.sum_congr rfl fun b _ => Finset.sum_congr rfl fun l _ => by ring
  funext a i j
  change (∑ k, (∑ l, (∑ m, ∑ n, (∑ b with πB b = a, g0 (u b l) m * g0 (u b j) n) * R k m * R k n) * Q i l) * w (a, πL i) (κ k)) + _
    - (∑ k, w (a, πL i) (κ k) * ∑ l, R k l * (∑ b with πB b = a, g0 (u b j) l * (v b i (k, 0) / v b i (k, 2)))) = _
  simp only [e1, e2]
  rfl

omit [Fintype A₁] [Fintype A₂] [Fintype K] [DecidableEq A₂] [DecidableEq K] [DecidableEq ι] in
theorem ardPsi_sub (πB : B → A₁) (πL : L → A₂) (κ : ι → K) (S : ArdSetupQ B L A₁ A₂ ι)
    (R : Matrix ι ι ℝ) (Q : Matrix L L ℝ) (p : Bool) (x y : ℝ) (v w : A₁ × A₂ → K → ℝ) (a : A₁) (i j : L) :
    ardPsi p πB πL κ S R Q (fun q k => x * v q k - y * w q k) a i j
      = x * ardPsi p πB πL κ S R Q v a i j - y * ardPsi p πB πL κ S R Q w a i j := by
  have lin : ∀ f g h v1 v2 w1 w2 : ι → ℝ, (∑ k, f k * (x * v1 k - y * w1 k)) + (∑ k, g k * (x * v2 k - y * w2 k))
      - (∑ k, (x * v1 k - y * w1 k) * h k)
      = x * ((∑ k, f k * v1 k) + (∑ k, g k * v2 k) - ∑ k, v1 k * h k) - y * ((∑ k, f k * w1 k) + (∑ k, g k * w2 k) - ∑ k, w1 k * h k) := by
    intro f g h v1 v2 w1 w2
    rw [← Finset.sum_add_distrib, ← Finset.sum_sub_distrib, ← Finset.sum_add_distrib, ← Finset.sum_sub_distrib, ← Finset.sum_add_distrib,
      ← Finset.sum_sub_distrib, Finset.mul_sum, Finset.mul_sum, ← Finset.sum_sub_distrib]
    exact Finset.sum_congr rfl fun k _ => by ring
  exact lin _ _ _ _ _ _ _

/-- the derivative of the sums by `Q` in the direction `F` -/
noncomputable def ardDSumsQ (πB : B → A₁) (πL : L → A₂) (S : ArdSetupQ B L A₁ A₂ ι) (Q F : Matrix L L ℝ) : ArdSums (A₁ × A₂) ι :=
  let QX := fun b i j => ∑ k, Q i k * S.X b k j
  let FX := fun b i j => ∑ k, F i k * S.X b k j
  { XX := fun a => (∑ i with πL i = a.2, (2 * colSum Q i * colSum F i) • S.CovX a.1 i)
      + ∑ b with πB b = a.1, ∑ i with πL i = a.2, (vecMulVec (FX b i) (QX b i) + vecMulVec (QX b i) (FX b i))
    Xmu := fun a => ∑ b with πB b = a.1, ∑ i with πL i = a.2, vecMulVec (FX b i) (S.mu b i)
    mu2 := 0 }

omit [Fintype A₁] [Fintype A₂] [DecidableEq ι] [Fintype ι] in
theorem hasDerivAt_sumsQ (πB : B → A₁) (πL : L → A₂) (S : ArdSetupQ B L A₁ A₂ ι) {δ : ℝ → Matrix L L ℝ} {F : Matrix L L ℝ}
    (h : ∀ i j, HasDerivAt (fun t => δ t i j) (F i j) 0) (q : A₁ × A₂) (c d : ι) :
    HasDerivAt (fun t => (ardSumsQ false πB πL S (δ t)).XX q c d) ((ardDSumsQ πB πL S (δ 0) F).XX q c d) 0
    ∧ HasDerivAt (fun t => (ardSumsQ false πB πL S (δ t)).Xmu q c d) ((ardDSumsQ πB πL S (δ 0) F).Xmu q c d) 0 := by
  have hq : ∀ b i j, HasDerivAt (fun t => ∑ k, δ t i k * S.X b k j) (∑ k, F i k * S.X b k j) 0 :=
    fun b i j => HasDerivAt.fun_sum fun k _ => (h i k).mul_const _
  constructor
  · have h1 : HasDerivAt (fun t => (∑ i with πL i = q.2, colSum (δ t) i ^ 2 * S.CovX q.1 i c d)
        + ∑ b with πB b = q.1, ∑ i with πL i = q.2, (∑ k, δ t i k * S.X b k c) * (∑ k, δ t i k * S.X b k d))
        ((∑ i with πL i = q.2, (((2 : ℕ) : ℝ) * colSum (δ 0) i ^ (2 - 1) * colSum F i) * S.CovX q.1 i c d)
        + ∑ b with πB b = q.1, ∑ i with πL i = q.2, ((∑ k, F i k * S.X b k c) * (∑ k, δ 0 i k * S.X b k d)
          + (∑ k, δ 0 i k * S.X b k c) * (∑ k, F i k * S.X b k d))) 0 :=
      (HasDerivAt.fun_sum fun i _ => ((hasDerivAt_colSum h i).fun_pow 2).mul_const _).add
        (HasDerivAt.fun_sum fun b _ => HasDerivAt.fun_sum fun i _ => (hq b i c).mul (hq b i d))
    refine hasDerivAt_of_eq h1 (fun t => ?_) ?_
    · simp [ardSumsQ, Matrix.sum_apply, vecMulVec_apply]
    · simp [ardDSumsQ, Matrix.sum_apply, vecMulVec_apply]
  · have h1 : HasDerivAt (fun t => ∑ b with πB b = q.1, ∑ i with πL i = q.2, (∑ k, δ t i k * S.X b k c) * S.mu b i d)
        (∑ b with πB b = q.1, ∑ i with πL i = q.2, (∑ k, F i k * S.X b k c) * S.mu b i d) 0 :=
      HasDerivAt.fun_sum fun b _ => HasDerivAt.fun_sum fun i _ => (hq b i c).mul_const _
    refine hasDerivAt_of_eq h1 (fun t => ?_) ?_
    · simp [ardSumsQ, Matrix.sum_apply, vecMulVec_apply]
    · simp [ardDSumsQ, Matrix.sum_apply, vecMulVec_apply]

omit [DecidableEq ι] in
/-- the squares along a curve of rotations and of sums -/
theorem hasDerivAt_squares_both {A : Type*} (T : ℝ → ArdSums A ι) (T' : ArdSums A ι) (q : A) (i : ι)
    (hT : ∀ c d, HasDerivAt (fun t => (T t).XX q c d) (T'.XX q c d) 0) (hm : ∀ c d, HasDerivAt (fun t => (T t).Xmu q c d) (T'.Xmu q c d) 0)
    (h2 : HasDerivAt (fun t => (T t).mu2 q i) (T'.mu2 q i) 0)
    (hS : ((T 0).XX q)ᵀ = (T 0).XX q) {γ : ℝ → Matrix ι ι ℝ} {E : Matrix ι ι ℝ} (h : CurveDeriv γ E) :
    HasDerivAt (fun t => ardSquares (T t) (γ t) q i) ((∑ j, ardDSquares (T 0) (γ 0) q i j * E i j) + ardSquares T' (γ 0) q i) 0 := by
  have h1 : ∀ k, HasDerivAt (fun t => ∑ l, γ t i l * (T t).XX q l k) (∑ l, (E i l * (T 0).XX q l k + γ 0 i l * T'.XX q l k)) 0 :=
    fun k => HasDerivAt.fun_sum fun l _ => (h i l).mul (hT l k)
  have h3 : HasDerivAt (fun t => ∑ k, (∑ l, γ t i l * (T t).XX q l k) * γ t i k)
      (∑ k, ((∑ l, (E i l * (T 0).XX q l k + γ 0 i l * T'.XX q l k)) * γ 0 i k + (∑ l, γ 0 i l * (T 0).XX q l k) * E i k)) 0 :=
    HasDerivAt.fun_sum fun k _ => (h1 k).mul (h i k)
  have h4 : HasDerivAt (fun t => ∑ k, γ t i k * (T t).Xmu q k i) (∑ k, (E i k * (T 0).Xmu q k i + γ 0 i k * T'.Xmu q k i)) 0 :=
    HasDerivAt.fun_sum fun k _ => (h i k).mul (hm k i)
  have := (h3.sub (h4.const_mul 2)).add h2
  refine hasDerivAt_of_eq this (fun t => rfl) ?_
  have e : ∑ k, (∑ l, E i l * (T 0).XX q l k) * γ 0 i k = ∑ k, (∑ l, γ 0 i l * (T 0).XX q l k) * E i k := by
    simp only [Finset.sum_mul]
    rw [Finset.sum_comm]
    refine Finset.sum_congr rfl fun l _ => Finset.sum_congr rfl fun k _ => ?_
    have : (T 0).XX q k l = (T 0).XX q l k := congrFun (congrFun hS l) k
    rw [this]
    ring
  have e' : ∑ j, ardDSquares (T 0) (γ 0) q i j * E i j
      = 2 * (∑ k, (∑ l, γ 0 i l * (T 0).XX q l k) * E i k) - 2 * ∑ k, E i k * (T 0).Xmu q k i := by
    rw [Finset.mul_sum, Finset.mul_sum, ← Finset.sum_sub_distrib]
    refine Finset.sum_congr rfl fun j _ => ?_
    simp only [ardDSquares, Matrix.sub_apply, Matrix.smul_apply, transpose_apply, smul_eq_mul, Matrix.mul_apply]
    ring
  rw [e']
  simp only [ardSquares, Matrix.mul_apply, Finset.sum_add_distrib, add_mul]
  rw [e]
  ring

omit [Fintype K] [DecidableEq K] [DecidableEq ι] in
/-- `psi` is half the derivative of the weighted squares by `Q` -/
theorem ardPsi_deriv (πB : B → A₁) (πL : L → A₂) (κ : ι → K) (S : ArdSetupQ B L A₁ A₂ ι) (R : Matrix ι ι ℝ) (Q F : Matrix L L ℝ)
    (v : A₁ × A₂ → K → ℝ) :
    ∑ q, ∑ i, ardSquares (ardDSumsQ πB πL S Q F) R q i * v q (κ i) = 2 * ∑ a, frob (ardPsi false πB πL κ S R Q v a) F := by
  let RX := fun b l i => ∑ k, R i k * S.X b l k
  let QXR := fun b i j => ∑ k, Q i k * RX b k j
  let FXR := fun b i j => ∑ k, F i k * RX b k j
  let RCR := fun a l i => ∑ k, ∑ m, R i k * S.CovX a l k m * R i m
  have rot : ∀ (G : Matrix L L ℝ) b l i, ∑ k, R i k * ∑ j, G l j * S.X b j k = ∑ j, G l j * RX b j i := by
    intro G b l i
    simp only [RX, Finset.mul_sum]
    rw [Finset.sum_comm]
    exact Finset.sum_congr rfl fun j _ => Finset.sum_congr rfl fun k _ => by ring
  have quad : ∀ (M : Matrix ι ι ℝ) i, ∑ k, (R * M) i k * R i k = ∑ k, ∑ m, R i k * M k m * R i m := by
    intro M i
    simp only [Matrix.mul_apply, Finset.sum_mul]
    exact Finset.sum_comm
  have outer : ∀ (x y : ι → ℝ) i, ∑ k, ∑ m, R i k * vecMulVec x y k m * R i m = (∑ k, R i k * x k) * ∑ m, R i m * y m := by
    intro x y i
    rw [Finset.sum_mul_sum]
    exact Finset.sum_congr rfl fun k _ => Finset.sum_congr rfl fun m _ => by rw [vecMulVec_apply]; ring
  have sq : ∀ q i, ardSquares (ardDSumsQ πB πL S Q F) R q i
      = ∑ l with πL l = q.2, (2 * colSum Q l * colSum F l * RCR q.1 l i
        + ∑ b with πB b = q.1, (2 * (QXR b l i * FXR b l i) - 2 * (FXR b l i * S.mu b l i))) := by
    intro q i
    change ∑ k, (R * (ardDSumsQ πB πL S Q F).XX q) i k * R i k - 2 * (∑ k, R i k * (ardDSumsQ πB πL S Q F).Xmu q k i) + 0 = _
    have t1 : ∑ k, (R * (ardDSumsQ πB πL S Q F).XX q) i k * R i k = (∑ l with πL l = q.2, 2 * colSum Q l * colSum F l * RCR q.1 l i)
        + ∑ l with πL l = q.2, ∑ b with πB b = q.1, 2 * (QXR b l i * FXR b l i) := by
      let qf : Matrix ι ι ℝ →+ ℝ :=
        { toFun := fun M => ∑ k, ∑ m, R i k * M k m * R i m
          map_zero' := by simp
          map_add' := fun M N => by simp only [Matrix.add_apply, mul_add, add_mul, Finset.sum_add_distrib] }
      rw [quad]
      change qf ((∑ l with πL l = q.2, (2 * colSum Q l * colSum F l) • S.CovX q.1 l)
        + ∑ b with πB b = q.1, ∑ l with πL l = q.2, (vecMulVec (fun j => ∑ k, F l k * S.X b k j) (fun j => ∑ k, Q l k * S.X b k j)
          + vecMulVec (fun j => ∑ k, Q l k * S.X b k j) (fun j => ∑ k, F l k * S.X b k j))) = _
      rw [map_add, map_sum]
      simp only [map_sum, map_add]
      congr 1
      · refine Finset.sum_congr rfl fun l _ => ?_
        change ∑ k, ∑ m, R i k * ((2 * colSum Q l * colSum F l) • S.CovX q.1 l) k m * R i m = _
        simp only [RCR, Finset.mul_sum, Matrix.smul_apply, smul_eq_mul]
        exact Finset.sum_congr rfl fun k _ => Finset.sum_congr rfl fun m _ => by ring
      · rw [Finset.sum_comm]
        refine Finset.sum_congr rfl fun l _ => Finset.sum_congr rfl fun b _ => ?_
        have o := fun G H : Matrix L L ℝ => outer (fun j => ∑ k, G l k * S.X b k j) (fun j => ∑ k, H l k * S.X b k j) i
        refine (congrArg₂ (· + ·) (o F Q) (o Q F)).trans ?_
        simp only [rot]
        change FXR b l i * QXR b l i + QXR b l i * FXR b l i = _
        ring
    have t2 : ∑ k, R i k * (ardDSumsQ πB πL S Q F).Xmu q k i = ∑ l with πL l = q.2, ∑ b with πB b = q.1, FXR b l i * S.mu b l i := by
      change ∑ k, R i k * (∑ b with πB b = q.1, ∑ l with πL l = q.2, vecMulVec (fun j => ∑ k, F l k * S.X b k j) (S.mu b l)) k i = _
      simp only [Matrix.sum_apply, Finset.mul_sum]
      rw [Finset.sum_comm, Finset.sum_congr rfl fun b _ => Finset.sum_comm, Finset.sum_comm]
      refine Finset.sum_congr rfl fun l _ => Finset.sum_congr rfl fun b _ => ?_
      simp only [FXR, ← rot, vecMulVec_apply, Finset.sum_mul, mul_assoc]
    rw [t1, t2, add_zero, Finset.mul_sum, ← Finset.sum_add_distrib, ← Finset.sum_sub_distrib]
    refine Finset.sum_congr rfl fun l _ => ?_
    simp only [Finset.sum_sub_distrib, ← Finset.mul_sum]
    ring
  have lhs : ∑ q, ∑ i, ardSquares (ardDSumsQ πB πL S Q F) R q i * v q (κ i)
      = ∑ a, ∑ l, ∑ i, (2 * colSum Q l * colSum F l * RCR a l i
        + ∑ b with πB b = a, (2 * (QXR b l i * FXR b l i) - 2 * (FXR b l i * S.mu b l i))) * v (a, πL l) (κ i) := by
    rw [Fintype.sum_prod_type]
    refine Finset.sum_congr rfl fun a _ => ?_
    rw [← Finset.sum_fiberwise Finset.univ πL]
    refine Finset.sum_congr rfl fun a2 _ => ?_
    rw [Finset.sum_comm]
    refine Finset.sum_congr rfl fun i _ => ?_
    rw [sq, Finset.sum_mul]
    exact Finset.sum_congr rfl fun l hl => by rw [(Finset.mem_filter.1 hl).2]
  rw [lhs, Finset.mul_sum]
  refine Finset.sum_congr rfl fun a _ => ?_
  have p1 : frob (ardPsi false πB πL κ S R Q v a) F
      = (∑ l, ∑ i, (∑ b with πB b = a, QXR b l i * FXR b l i) * v (a, πL l) (κ i))
        + (∑ l, ∑ i, colSum Q l * colSum F l * RCR a l i * v (a, πL l) (κ i))
        - ∑ l, ∑ i, (∑ b with πB b = a, FXR b l i * S.mu b l i) * v (a, πL l) (κ i) := by
    change ∑ l, ∑ j, ((∑ i, (∑ b with πB b = a, QXR b l i * RX b j i) * v (a, πL l) (κ i)) + (∑ i, RCR a j i * colSum Q j * v (a, πL j) (κ i))
      - ∑ i, v (a, πL l) (κ i) * ∑ b with πB b = a, RX b j i * S.mu b l i) * F l j = _
    simp only [add_mul, sub_mul, Finset.sum_add_distrib, Finset.sum_sub_distrib]
    congr 1
    · congr 1
      · refine Finset.sum_congr rfl fun l _ => ?_
        simp only [FXR, Finset.mul_sum, Finset.sum_mul]
        rw [Finset.sum_comm]
        refine Finset.sum_congr rfl fun i _ => ?_
        rw [Finset.sum_comm]
        exact Finset.sum_congr rfl fun b _ => Finset.sum_congr rfl fun j _ => by ring
      · rw [Finset.sum_comm]
        refine Finset.sum_congr rfl fun j _ => ?_
        rw [← Finset.mul_sum, Finset.sum_mul]
        refine Finset.sum_congr rfl fun i _ => ?_
        change _ * colSum F j = _
        ring
    · refine Finset.sum_congr rfl fun l _ => ?_
      simp only [FXR, Finset.mul_sum, Finset.sum_mul]
      rw [Finset.sum_comm]
      refine Finset.sum_congr rfl fun i _ => ?_
      rw [Finset.sum_comm]
      exact Finset.sum_congr rfl fun b _ => Finset.sum_congr rfl fun j _ => by ring
  rw [p1, ← Finset.sum_add_distrib, ← Finset.sum_sub_distrib, Finset.mul_sum]
  refine Finset.sum_congr rfl fun l _ => ?_
  rw [← Finset.sum_add_distrib, ← Finset.sum_sub_distrib, Finset.mul_sum]
  refine Finset.sum_congr rfl fun i _ => ?_
  rw [Finset.sum_sub_distrib, ← Finset.mul_sum, ← Finset.mul_sum]
  ring

/-- the gradient by `Q` which is returned, where the rates are not zero -/
theorem ardGradQ_eq (p : Bool) (nB rB rL rK : ℕ) (πB : B → A₁) (πL : L → A₂) (κ : ι → K) (a : A₁ × A₂ → K → ℝ)
    (a0 b0 : ℝ) (S : ArdSetupQ B L A₁ A₂ ι) (R : Matrix ι ι ℝ) (Q : Matrix L L ℝ)
    (hb : ∀ q k, ardRate κ (fun _ _ => b0) (ardSumsQ p πB πL S Q) R q k ≠ 0) (i j : L) :
    ardGradQ p nB rB rL rK πB πL κ a a0 b0 S R Q i j = nB * ((Fintype.card ι : ℝ) / colSum Q j)
      - (a0 + 0.5 * (rB * rL * rK : ℕ)) * ∑ c, ardPsi p πB πL κ S R Q (fun q k => 1 / ardRate κ (fun _ _ => b0) (ardSumsQ p πB πL S Q) R q k) c i j := by
  have hsq : ∀ q k, ∑ i' with κ i' = k, ardSquares (ardSumsQ p πB πL S Q) R q i'
      = 2 * ardRate κ (fun _ _ => b0) (ardSumsQ p πB πL S Q) R q k - 2 * b0 := by
    intro q k
    unfold ardRate
    ring
  set b := ardRate κ (fun _ _ => b0) (ardSumsQ p πB πL S Q) R with hbdef
  have e : (fun q k => a q k / b q k / b q k * ∑ i' with κ i' = k, ardSquares (ardSumsQ p πB πL S Q) R q i')
      = fun q k => 2 * (a q k / b q k) - (2 * b0) * (a q k / b q k / b q k) := by
    funext q k
    have := hb q k
    rw [hsq]
    field_simp
  have e2 := fun c => ardPsi_sub πB πL κ S R Q p 2 (2 * b0) (fun q k => a q k / b q k) (fun q k => a q k / b q k / b q k) c i j
  simp only [ardGradQ, gaussianEntropy, gaussianLogpdf, gammaLogpdf, ← hbdef]
  rw [e]
  simp only [Matrix.add_apply, Matrix.neg_apply, Matrix.smul_apply, smul_eq_mul, Finset.sum_add_distrib, Finset.sum_neg_distrib, ← Finset.mul_sum, mul_neg, e2,
    Finset.sum_sub_distrib]
  push_cast
  ring

omit [Fintype A₁] [Fintype A₂] [Fintype ι] [DecidableEq ι] in
theorem ardSumsQ_symm (πB : B → A₁) (πL : L → A₂) (u : B → L → GIx ι → ℝ) (hu : ∀ b l, (g1 (u b l))ᵀ = g1 (u b l))
    (v : B → L → ι × Fin 4 → ℝ) (Q : Matrix L L ℝ) (q : A₁ × A₂) :
    ((ardSumsQ false πB πL (ardSetupQ πB πL u v) Q).XX q)ᵀ = (ardSumsQ false πB πL (ardSetupQ πB πL u v) Q).XX q := by
  have hv : ∀ x : ι → ℝ, (vecMulVec x x)ᵀ = vecMulVec x x := fun x => transpose_vecMulVec x x
  change ((∑ i with πL i = q.2, colSum Q i ^ 2 • ∑ b with πB b = q.1, (g1 (u b i) - vecMulVec (g0 (u b i)) (g0 (u b i))))
    + ∑ b with πB b = q.1, ∑ i with πL i = q.2, vecMulVec (fun j => ∑ k, Q i k * g0 (u b k) j) (fun j => ∑ k, Q i k * g0 (u b k) j))ᵀ = _
  simp only [transpose_add, transpose_sum, transpose_smul, transpose_sub, hu, hv]
  rfl

/-- **C67** The rows of the dynamics matrix: the two gradients which `RotateGaussianARD.bound` returns with a plate rotation are the
gradients of the bound by `R` and by `Q`, with both ways of computing the sums. -/
theorem C67_ard_plates (p : Bool) (rB rL rK : ℕ) (πB : B → A₁) (πL : L → A₂) (κ : ι → K) (a : A₁ × A₂ → K → ℝ) (a0 b0 : ℝ)
    (u : B → L → GIx ι → ℝ) (hu : ∀ b l, (g1 (u b l))ᵀ = g1 (u b l)) (v : B → L → ι × Fin 4 → ℝ)
    (γ : ℝ → Matrix ι ι ℝ) (E : Matrix ι ι ℝ) (hγ : CurveDeriv γ E) (h0 : (γ 0).det ≠ 0)
    (δ : ℝ → Matrix L L ℝ) (F : Matrix L L ℝ) (hδ : CurveDeriv δ F) (hQ : ∀ l, colSum (δ 0) l ≠ 0)
    (hb : ∀ q k, ardRate κ (fun _ _ => b0) (ardSumsQ p πB πL (ardSetupQ πB πL u v) (δ 0)) (γ 0) q k ≠ 0) :
    let f := ardBlockQ p (Fintype.card B) (Fintype.card L) rB rL rK πB πL κ a a0 b0 (ardSetupQ πB πL u v)
    HasDerivAt (fun t => (f (γ t) (γ t)⁻¹ (slogdet (γ t)) (δ t)).1)
      (frob (f (γ 0) (γ 0)⁻¹ (slogdet (γ 0)) (δ 0)).2.1 E + frob (f (γ 0) (γ 0)⁻¹ (slogdet (γ 0)) (δ 0)).2.2 F) 0 := by
  intro f
  have ep := ardSumsQ_precompute πB πL u v
  rw [ep _ p] at hb
  set S := ardSetupQ πB πL u v with hS
  let T := fun t => ardSumsQ false πB πL S (δ t)
  let T' := ardDSumsQ πB πL S (δ 0) F
  have hsq : ∀ q i, HasDerivAt (fun t => ardSquares (T t) (γ t) q i)
      ((∑ j, ardDSquares (T 0) (γ 0) q i j * E i j) + ardSquares T' (γ 0) q i) 0 := fun q i =>
    hasDerivAt_squares_both T T' q i (fun c d => (hasDerivAt_sumsQ πB πL S hδ q c d).1) (fun c d => (hasDerivAt_sumsQ πB πL S hδ q c d).2)
      (hasDerivAt_const (0 : ℝ) (S.mu2 q i)) (ardSumsQ_symm πB πL u hu v (δ 0) q) hγ
  have hrate : ∀ q k, HasDerivAt (fun t => ardRate κ (fun _ _ => b0) (T t) (γ t) q k)
      (0.5 * ∑ i with κ i = k, ((∑ j, ardDSquares (T 0) (γ 0) q i j * E i j) + ardSquares T' (γ 0) q i)) 0 := fun q k =>
    ((HasDerivAt.fun_sum fun i _ => hsq q i).const_mul (0.5 : ℝ)).const_add b0
  have hev : ∀ᶠ t in 𝓝 (0 : ℝ), ∀ q k, ardRate κ (fun _ _ => b0) (T t) (γ t) q k ≠ 0 :=
    eventually_all.2 fun q => eventually_all.2 fun k => (hrate q k).continuousAt.eventually_ne (hb q k)
  let c := a0 + 0.5 * (rB * rL * rK : ℕ)
  let b := ardRate κ (fun _ _ => b0) (T 0) (γ 0)
  have hlog : HasDerivAt (fun t => ∑ q, ∑ k, c * Real.log (ardRate κ (fun _ _ => b0) (T t) (γ t) q k))
      (∑ q, ∑ k, c * ((0.5 * ∑ i with κ i = k, ((∑ j, ardDSquares (T 0) (γ 0) q i j * E i j) + ardSquares T' (γ 0) q i)) / b q k)) 0 :=
    HasDerivAt.fun_sum fun q _ => HasDerivAt.fun_sum fun k _ => ((hrate q k).log (hb q k)).const_mul _
  have hcol : ∀ l, HasDerivAt (fun t => Real.log |colSum (δ t) l|) (colSum F l / colSum (δ 0) l) 0 := by
    intro l
    simp only [Real.log_abs]
    exact (hasDerivAt_colSum hδ l).log (hQ l)
  have hplate : HasDerivAt (fun t => plateLogdet (Fintype.card B) (Fintype.card ι) (δ t) (slogdet (γ t)))
      (Fintype.card B * ∑ l, (((γ 0)⁻¹ * E).trace + Fintype.card ι * (colSum F l / colSum (δ 0) l))) 0 :=
    (HasDerivAt.fun_sum fun l _ => (hasDerivAt_slogdet hγ h0).add ((hcol l).const_mul _)).const_mul _
  have h2 := (hplate.sub_const (∑ q, ∑ k, a q k)).sub hlog
  have h3 := h2.congr_of_eventuallyEq (f₁ := fun t => (f (γ t) (γ t)⁻¹ (slogdet (γ t)) (δ t)).1) (by
    filter_upwards [hev] with t ht
    change ardBoundUpdateQ _ (rB * rL) rK κ a (fun _ _ => a0) (fun _ _ => b0) (ardSumsQ p πB πL S (δ t)) (γ t) (slogdet (γ t)) (δ t) = _
    rw [ep _ p, ardBoundUpdateQ_eq, ardBoundUpdate_eq _ _ _ _ _ _ _ _ _ _ ht]
    change _ = plateLogdet _ _ _ _ - _ - _
    ring)
  refine hasDerivAt_of_eq h3 (fun t => rfl) ?_
  have g1' : frob (f (γ 0) (γ 0)⁻¹ (slogdet (γ 0)) (δ 0)).2.1 E = (Fintype.card B * Fintype.card L : ℕ) * ((γ 0)⁻¹ * E).trace
      + ∑ q, ∑ i, ∑ j, -(c / b q (κ i) * (0.5 * ardDSquares (T 0) (γ 0) q i j)) * E i j := by
    change frob (ardGradUpdate (Fintype.card B * Fintype.card L) (rB * rL) rK κ a (fun _ => a0) (fun _ _ => b0) (ardSumsQ p πB πL S (δ 0)) (γ 0)
      (γ 0)⁻¹) E = _
    rw [ep _ p, ardGradUpdate_eq _ _ _ _ _ _ _ _ _ _ hb, frob_grad]
  have g2' : frob (f (γ 0) (γ 0)⁻¹ (slogdet (γ 0)) (δ 0)).2.2 F = Fintype.card B * (∑ l, Fintype.card ι * (colSum F l / colSum (δ 0) l))
      - c * ∑ d, frob (ardPsi false πB πL κ S (γ 0) (δ 0) (fun q k => 1 / b q k) d) F := by
    have e : (f (γ 0) (γ 0)⁻¹ (slogdet (γ 0)) (δ 0)).2.2 = fun i j => Fintype.card B * ((Fintype.card ι : ℝ) / colSum (δ 0) j)
        - c * ∑ d, ardPsi false πB πL κ S (γ 0) (δ 0) (fun q k => 1 / b q k) d i j := by
      funext i j
      change ardGradQ p _ rB rL rK πB πL κ a a0 b0 S (γ 0) (δ 0) i j = _
      rw [ardGradQ_eq p _ rB rL rK πB πL κ a a0 b0 S (γ 0) (δ 0) (by rw [ep _ p]; exact hb), ep _ p, hS, ardPsi_precompute]
    rw [e]
    unfold frob
    simp only [sub_mul, Finset.sum_sub_distrib]
    congr 1
    · rw [Finset.sum_comm, Finset.mul_sum]
      refine Finset.sum_congr rfl fun j _ => ?_
      rw [← Finset.mul_sum]
      change _ * colSum F j = _
      ring
    · rw [Finset.sum_comm' (s := Finset.univ (α := A₁)) (t' := Finset.univ) (s' := fun _ => Finset.univ) (by simp), Finset.mul_sum]
      refine Finset.sum_congr rfl fun i _ => ?_
      rw [Finset.sum_comm, Finset.mul_sum]
      refine Finset.sum_congr rfl fun j _ => ?_
      rw [← Finset.sum_mul, mul_assoc]
  have fib : ∀ (q : A₁ × A₂) (w : ι → ℝ), ∑ k, c * ((0.5 * ∑ i with κ i = k, w i) / b q k) = 0.5 * c * ∑ i, w i * (1 / b q (κ i)) := by
    intro q w
    rw [← Finset.sum_fiberwise Finset.univ κ, Finset.mul_sum]
    refine Finset.sum_congr rfl fun k _ => ?_
    rw [Finset.mul_sum, Finset.sum_div, Finset.mul_sum, Finset.mul_sum]
    refine Finset.sum_congr rfl fun i hi => ?_
    rw [(Finset.mem_filter.1 hi).2]
    ring
  have hpsi := ardPsi_deriv πB πL κ S (γ 0) (δ 0) F (fun q k => 1 / b q k)
  rw [g1', g2', Finset.sum_congr rfl fun q _ => fib q _]
  simp only [add_mul, Finset.sum_add_distrib, mul_add, ← Finset.mul_sum]
  change _ = _ - (_ + 0.5 * c * ∑ q, ∑ i, ardSquares (ardDSumsQ πB πL S (δ 0) F) (γ 0) q i * (1 / b q (κ i)))
  rw [hpsi]
  have hR : ∑ q, ∑ i, ∑ j, -(c / b q (κ i) * (0.5 * ardDSquares (T 0) (γ 0) q i j)) * E i j
      = -(0.5 * c * ∑ q, ∑ i, (∑ j, ardDSquares (T 0) (γ 0) q i j * E i j) * (1 / b q (κ i))) := by
    rw [Finset.mul_sum, ← Finset.sum_neg_distrib]
    refine Finset.sum_congr rfl fun q _ => ?_
    rw [Finset.mul_sum, ← Finset.sum_neg_distrib]
    refine Finset.sum_congr rfl fun i _ => ?_
    rw [Finset.sum_mul, Finset.mul_sum, ← Finset.sum_neg_distrib]
    exact Finset.sum_congr rfl fun j _ => by ring
  rw [hR]
  simp only [Finset.sum_const, Finset.card_univ, nsmul_eq_mul]
  push_cast
  ring

end

/-! ### the chain -/

section
variable {P : Type*} [Fintype P] {M D : Nat} {κ : Type} [Fintype κ]

theorem hasDerivAt_trace_quad {n : Type*} [Fintype n] (A B : Matrix n n ℝ) {γ : ℝ → Matrix n n ℝ} {E : Matrix n n ℝ} (h : CurveDeriv γ E) :
    HasDerivAt (fun t => (A * γ t * B * (γ t)ᵀ).trace) (frob (Aᵀ * γ 0 * Bᵀ) E + frob (A * γ 0 * B) E) 0 := by
  have h1 : ∀ i l, HasDerivAt (fun t => (A * γ t * B) i l) ((A * E * B) i l) 0 := by
    intro i l
    simp only [Matrix.mul_apply]
    exact HasDerivAt.fun_sum fun k _ => (HasDerivAt.fun_sum fun j _ => (h j k).const_mul _).mul_const _
  have h2 : HasDerivAt (fun t => ∑ i, ∑ l, (A * γ t * B) i l * γ t i l)
      (∑ i, ∑ l, ((A * E * B) i l * γ 0 i l + (A * γ 0 * B) i l * E i l)) 0 :=
    HasDerivAt.fun_sum fun i _ => HasDerivAt.fun_sum fun l _ => (h1 i l).mul (h i l)
  have tr : ∀ X Y : Matrix n n ℝ, (X * Yᵀ).trace = ∑ i, ∑ l, X i l * Y i l := fun X Y => rfl
  refine hasDerivAt_of_eq h2 (fun t => tr _ _) ?_
  simp only [Finset.sum_add_distrib]
  congr 1
  rw [← tr, frob_eq_trace, Matrix.mul_assoc (A * E), trace_mul_comm (A * E)]
  simp only [transpose_mul, transpose_transpose, Matrix.mul_assoc]

theorem hasDerivAt_trace_lin {n : Type*} [Fintype n] (A : Matrix n n ℝ) {γ : ℝ → Matrix n n ℝ} {E : Matrix n n ℝ} (h : CurveDeriv γ E) :
    HasDerivAt (fun t => (A * (γ t)ᵀ).trace) (frob A E) 0 :=
  HasDerivAt.fun_sum fun i _ => HasDerivAt.fun_sum fun l _ => (h i l).const_mul _

/-- **C67** The chain: what `RotateGaussianMarkovChain._compute_bound` returns second is the gradient of what it returns first. -/
theorem C67_chain (N nP : ℕ) (S : ChainSums P D) (hX : ∀ p, (S.X0X0 p)ᵀ = S.X0X0 p) (hL : ∀ p, (S.Lambda p)ᵀ = S.Lambda p)
    (hn : S.XnXnᵀ = S.XnXn) (hA : S.A_XpXp_Aᵀ = S.A_XpXp_A) (γ : ℝ → Matrix (Fin D) (Fin D) ℝ) (E : Matrix (Fin D) (Fin D) ℝ)
    (h : CurveDeriv γ E) (h0 : (γ 0).det ≠ 0) :
    HasDerivAt (fun t => chainBound N nP S (γ t) (slogdet (γ t))) (frob (chainGrad N nP S (γ 0) (γ 0)⁻¹) E) 0 := by
  have d1 : HasDerivAt (fun t => (γ t * S.XnXn * (γ t)ᵀ).trace) (2 * frob (γ 0 * S.XnXn) E) 0 := by
    have := hasDerivAt_trace_quad 1 S.XnXn h
    simp only [Matrix.one_mul, transpose_one, hn] at this
    rwa [two_mul]
  have d2 : HasDerivAt (fun t => ((∑ p, S.Lambda p * γ t * S.X0X0 p) * (γ t)ᵀ).trace) (2 * frob (∑ p, S.Lambda p * γ 0 * S.X0X0 p) E) 0 := by
    have h2 : HasDerivAt (fun t => ∑ p, (S.Lambda p * γ t * S.X0X0 p * (γ t)ᵀ).trace)
        (∑ p, (frob ((S.Lambda p)ᵀ * γ 0 * (S.X0X0 p)ᵀ) E + frob (S.Lambda p * γ 0 * S.X0X0 p) E)) 0 :=
      HasDerivAt.fun_sum fun p _ => hasDerivAt_trace_quad _ _ h
    refine hasDerivAt_of_eq h2 (fun t => ?_) ?_
    · rw [Finset.sum_mul, trace_sum]
    · simp only [hX, hL]
      rw [frob_eq_trace, transpose_sum, Finset.sum_mul, trace_sum, Finset.mul_sum]
      exact Finset.sum_congr rfl fun p _ => by rw [frob_eq_trace]; ring
  have d3 : HasDerivAt (fun t => (γ t * S.A_XpXn * (γ t)ᵀ).trace) (frob (γ 0 * (S.A_XpXn + S.A_XpXnᵀ)) E) 0 := by
    have := hasDerivAt_trace_quad 1 S.A_XpXn h
    simp only [Matrix.one_mul, transpose_one] at this
    rwa [Matrix.mul_add, frob_add_left, add_comm]
  have d4 := hasDerivAt_trace_lin S.Lambda_mu_X0 h
  have d5 : HasDerivAt (fun t => (γ t * S.A_XpXp_A * (γ t)ᵀ).trace) (2 * frob (γ 0 * S.A_XpXp_A) E) 0 := by
    have := hasDerivAt_trace_quad 1 S.A_XpXp_A h
    simp only [Matrix.one_mul, transpose_one, hA] at this
    rwa [two_mul]
  have d6 : HasDerivAt (fun t => ∑ d, colSum (γ t) d * S.CovA_XpXp d * colSum (γ t) d)
      (2 * frob (of fun _ j => colSum (γ 0) j * S.CovA_XpXp j) E) 0 := by
    have h2 : HasDerivAt (fun t => ∑ d, colSum (γ t) d * S.CovA_XpXp d * colSum (γ t) d)
        (∑ d, (colSum E d * S.CovA_XpXp d * colSum (γ 0) d + colSum (γ 0) d * S.CovA_XpXp d * colSum E d)) 0 :=
      HasDerivAt.fun_sum fun d _ => ((hasDerivAt_colSum h d).mul_const _).mul (hasDerivAt_colSum h d)
    refine hasDerivAt_of_eq h2 (fun t => rfl) ?_
    unfold frob
    rw [Finset.sum_comm, Finset.mul_sum]
    refine Finset.sum_congr rfl fun j _ => ?_
    simp only [of_apply]
    rw [← Finset.mul_sum]
    change 2 * (_ * colSum E j) = _
    ring
  have d7 := hasDerivAt_slogdet h h0
  have all := ((((d1.add d2).const_mul (-0.5 : ℝ)).add (d3.add d4)).sub ((d5.add d6).const_mul (0.5 : ℝ))).add (d7.const_mul ((N * nP : ℕ) : ℝ))
  refine hasDerivAt_of_eq all (fun t => ?_) ?_
  · simp only [chainBound, gaussianLogpdf, gaussianEntropy, Pi.add_apply, Pi.sub_apply]
    ring
  · have e : chainGrad N nP S (γ 0) (γ 0)⁻¹ = (-1 : ℝ) • (γ 0 * S.XnXn) + (-1 : ℝ) • (∑ p, S.Lambda p * γ 0 * S.X0X0 p)
        + γ 0 * (S.A_XpXn + S.A_XpXnᵀ) + S.Lambda_mu_X0 + (-1 : ℝ) • (γ 0 * S.A_XpXp_A)
        + (-1 : ℝ) • (of fun _ j => colSum (γ 0) j * S.CovA_XpXp j) + ((N * nP : ℕ) : ℝ) • (γ 0)⁻¹ᵀ := by
      ext i j
      simp only [chainGrad, gaussianLogpdf, gaussianEntropy, Matrix.add_apply, Matrix.smul_apply, smul_eq_mul]
      ring
    rw [e]
    simp only [frob_add_left, frob_smul_left]
    have et : frob (γ 0)⁻¹ᵀ E = ((γ 0)⁻¹ * E).trace := by
      rw [frob_eq_trace, transpose_transpose]
    rw [et]
    ring

theorem eventually_det {n : Type*} [Fintype n] [DecidableEq n] {γ : ℝ → Matrix n n ℝ} {E : Matrix n n ℝ} (h : CurveDeriv γ E)
    (h0 : (γ 0).det ≠ 0) : ∀ᶠ t in 𝓝 (0 : ℝ), (γ t).det ≠ 0 := by
  have hγ : HasDerivAt (F := n → n → ℝ) γ E 0 := hasDerivAt_pi.2 fun i => hasDerivAt_pi.2 fun j => h i j
  have hc : ContinuousAt (fun t => (γ t).det) 0 := ((differentiable_det (ι := n) (γ 0)).hasFDerivAt.comp_hasDerivAt (0 : ℝ) hγ).continuousAt
  exact hc.eventually_ne h0

variable [DecidableEq κ]

theorem frob_withInputs (G : Matrix (Fin D ⊕ κ) (Fin D ⊕ κ) ℝ) (X : Matrix (Fin D) (Fin D) ℝ) :
    frob G (fromBlocks X 0 0 0) = frob G.toBlocks₁₁ X := by
  unfold frob
  simp [Fintype.sum_sum_type, toBlocks₁₁]

theorem curve_withInputs {γ : ℝ → Matrix (Fin D) (Fin D) ℝ} {E : Matrix (Fin D) (Fin D) ℝ} (h : CurveDeriv γ E) :
    CurveDeriv (fun t => withInputs (κ := κ) (γ t)) (fromBlocks E 0 0 0) := by
  rintro (i | i) (j | j)
  · exact h i j
  · exact hasDerivAt_const (0 : ℝ) (0 : ℝ)
  · exact hasDerivAt_const (0 : ℝ) (0 : ℝ)
  · exact hasDerivAt_const (0 : ℝ) ((1 : Matrix κ κ ℝ) i j)

/-- the terms of the chain and of the dynamics with any gradients which are right -/
theorem chainBlock_gradient (N nP : ℕ) (S : ChainSums P D) (hX : ∀ p, (S.X0X0 p)ᵀ = S.X0X0 p) (hL : ∀ p, (S.Lambda p)ᵀ = S.Lambda p)
    (hn : S.XnXnᵀ = S.XnXn) (hA : S.A_XpXp_Aᵀ = S.A_XpXp_A)
    (f : Matrix (Fin D ⊕ κ) (Fin D ⊕ κ) ℝ → Matrix (Fin D ⊕ κ) (Fin D ⊕ κ) ℝ → ℝ → Matrix (Fin D) (Fin D) ℝ →
      ℝ × Matrix (Fin D ⊕ κ) (Fin D ⊕ κ) ℝ × Matrix (Fin D) (Fin D) ℝ) (R : Matrix (Fin D) (Fin D) ℝ) (hR : R.det ≠ 0)
    (hf : ∀ (γ : ℝ → Matrix (Fin D ⊕ κ) (Fin D ⊕ κ) ℝ) (E : Matrix (Fin D ⊕ κ) (Fin D ⊕ κ) ℝ) (δ : ℝ → Matrix (Fin D) (Fin D) ℝ)
      (F : Matrix (Fin D) (Fin D) ℝ), CurveDeriv γ E → CurveDeriv δ F → γ 0 = withInputs R⁻¹ᵀ → δ 0 = R →
      HasDerivAt (fun t => (f (γ t) (γ t)⁻¹ (slogdet (γ t)) (δ t)).1)
        (frob (f (γ 0) (γ 0)⁻¹ (slogdet (γ 0)) (δ 0)).2.1 E + frob (f (γ 0) (γ 0)⁻¹ (slogdet (γ 0)) (δ 0)).2.2 F) 0) :
    BlockGradientAt (chainBlock N nP S f) R := by
  intro γ E hγ e0
  have h0 : (γ 0).det ≠ 0 := by rw [e0]; exact hR
  have hc := C67_chain N nP S hX hL hn hA γ E hγ h0
  have hinv := curve_inv hγ h0
  have hW : CurveDeriv (fun t => withInputs (κ := κ) (γ t)⁻¹ᵀ) (fromBlocks (-((γ 0)⁻¹ * E * (γ 0)⁻¹))ᵀ 0 0 0) :=
    curve_withInputs fun i j => hinv j i
  have hA' := hf _ _ γ E hW hγ (by rw [e0]) e0
  have key : ∀ A : Matrix (Fin D) (Fin D) ℝ, A.det ≠ 0 →
      slogdet (withInputs (κ := κ) A⁻¹ᵀ) = -slogdet A ∧ (withInputs (κ := κ) A⁻¹ᵀ)⁻¹ = withInputs Aᵀ := by
    intro A hA
    have hd := (C46_opposite_args A hA).1
    constructor
    · unfold slogdet
      rw [withInputs_det, det_transpose, det_nonsing_inv, Ring.inverse_eq_inv', Real.log_inv]
    · rw [withInputs_inv hd, ← transpose_nonsing_inv, nonsing_inv_nonsing_inv _ hA.isUnit]
  have all := (hc.add hA').congr_of_eventuallyEq (f₁ := fun t => ((chainBlock N nP S f).bound (γ t) (slogdet (γ t)) (γ t)⁻¹).1) (by
    filter_upwards [eventually_det hγ h0] with t ht
    obtain ⟨k1, k2⟩ := key _ ht
    change chainBound N nP S (γ t) (slogdet (γ t)) + (f (withInputs (γ t)⁻¹ᵀ) (withInputs (γ t)ᵀ) (-slogdet (γ t)) (γ t)).1 = _
    rw [← k1, ← k2]
    rfl)
  refine hasDerivAt_of_eq all (fun t => rfl) ?_
  obtain ⟨k1, k2⟩ := key _ hR
  rw [e0, k1, k2, frob_withInputs, trace_three, ← add_assoc, ← frob_add_left, ← frob_add_left]
  rfl

/-- **C67** The block of a chain with `alpha`: the gradient which `RotateGaussianMarkovChain.bound` returns is the gradient of the bound,
at every invertible rotation whose columns do not sum to zero. -/
theorem C67_chain_block {B : Type*} [Fintype B] {A₁ A₂ K : Type*} [Fintype A₁] [Fintype A₂] [Fintype K] [DecidableEq A₁] [DecidableEq A₂]
    [DecidableEq K] (β : P → Fin M → B) (v : P → GWIx (Fin D) → ℝ) (hv : ∀ p, (gw2 (v p))ᵀ = gw2 (v p)) (z : P → InpIx M κ → ℝ)
    (hz : ∀ p m k l, i1 (z p) m k l = i1 (z p) m l k) (u : P → GMCIx M D → ℝ) (hu : ∀ p n, (c1 (u p) n)ᵀ = c1 (u p) n)
    (sA : B → Fin D → ExpState (GIx (Fin D ⊕ κ))) (hs : ∀ b d, StateConsistent gaussianMoments gaussianCgf (sA b d))
    (hd : ∀ b d, ((-2 : ℝ) • g1 (sA b d).phi).PosDef) (pre : Bool) (πB : B → A₁) (πL : Fin D → A₂) (κ' : Fin D ⊕ κ → K) (rB rL rK : ℕ)
    (a : A₁ × A₂ → K → ℝ) (a0 b0 : ℝ) (hb0 : 0 < b0) (m : B → Fin D → Fin D ⊕ κ → Fin 2 → ℝ)
    (hm : ∀ b l i, m b l i 0 ^ 2 ≤ m b l i 1) (t : A₁ × A₂ → K → Fin 2 → ℝ) (ht : ∀ a k, 0 < t a k 0)
    (R : Matrix (Fin D) (Fin D) ℝ) (hR : R.det ≠ 0) (hQ : ∀ d, colSum R d ≠ 0) :
    BlockGradientAt (chainBlock (M + 1) (Fintype.card P) (chainSetup u v (fun p m d => (sA (β p m) d).u) z)
      (ardBlockQ pre (Fintype.card B) (Fintype.card (Fin D)) rB rL rK πB πL κ' a a0 b0 (ardSetupQ πB πL (fun b l => (sA b l).u)
        fun b l i => wrap0 (m b l i.1) (t (πB b, πL l) (κ' i.1)) i.2))) R := by
  have hsec : ∀ b l, SecondMoment (sA b l).u := fun b l => by
    rw [(hs b l).1]
    exact secondMoment_gaussian _ (hd b l)
  have hsym : ∀ b l, (g1 (sA b l).u)ᵀ = g1 (sA b l).u := fun b l => by
    have := (hsec b l).posSemidef.isHermitian
    rwa [IsHermitian, conjTranspose_eq_transpose_of_trivial] at this
  refine chainBlock_gradient _ _ _ (fun p => hu p 0) hv ?_ ?_ _ R hR ?_
  · change (∑ p, ∑ m : Fin M, c1 (u p) m.succ)ᵀ = _
    simp only [transpose_sum, hu]
    rfl
  · have hxp : ∀ p m, (chainXpXp (u p) (z p) m)ᵀ = chainXpXp (u p) (z p) m := by
      intro p m
      unfold chainXpXp
      rw [fromBlocks_transpose, hu, transpose_transpose]
      congr 1
      ext k l
      exact hz p m l k
    change (∑ p, ∑ m, _ * chainXpXp (u p) (z p) m * _ᵀ)ᵀ = _
    simp only [transpose_sum, transpose_mul, transpose_transpose, hxp, ← Matrix.mul_assoc]
    rfl
  · intro γ E δ F hγ hδ e0 d0
    have hW' : (withInputs (κ := κ) R⁻¹ᵀ).det ≠ 0 := by
      rw [withInputs_det]
      exact (C46_opposite_args R hR).1
    refine C67_ard_plates pre rB rL rK πB πL κ' a a0 b0 (fun b l => (sA b l).u) hsym _ γ E hγ (by rw [e0]; exact hW') δ F hδ
      (by rw [d0]; exact hQ) ?_
    intro q k
    rw [e0, d0]
    have hsec' : ∀ p, SecondMoment (rotatedRows (withInputs R⁻¹ᵀ) R sA p).u := by
      intro p
      obtain ⟨h1, h2⟩ := rotatedRows_consistent sA hs hd (withInputs R⁻¹ᵀ) hW' R hQ p
      rw [h1.1]
      exact secondMoment_gaussian _ h2
    have := (ardRate_pos (fun p : B × Fin D => (πB p.1, πL p.2)) κ' (fun _ _ => b0) (fun _ _ => hb0) (fun p => m p.1 p.2) (fun p => hm p.1 p.2)
      t ht (rotatedRows (withInputs R⁻¹ᵀ) R sA) hsec' 1 q k).ne'
    have hsq := ardSquaresQ_eq pre πB πL (fun b l i => wrap0 (m b l i.1) (t (πB b, πL l) (κ' i.1)) i.2) sA hs hd (withInputs R⁻¹ᵀ) hW' R hQ
    unfold ardRate at *
    rwa [hsq] at this

end

/-! ### examples -/

section

/-- the states of a chain with one transition -/
noncomputable def exStates : GMCIx 1 2 → ℝ := gmcFixed fun n => ![1, (n : ℝ) + 2]

theorem exStates_symm (n : Fin 2) : (c1 exStates n)ᵀ = c1 exStates n := by
  change (vecMulVec ![1, (n : ℝ) + 2] ![1, (n : ℝ) + 2])ᵀ = vecMulVec ![1, (n : ℝ) + 2] ![1, (n : ℝ) + 2]
  exact transpose_vecMulVec _ _

/-- the block of a chain with an input, rows of the dynamics with different means and `alpha` common to the rows -/
noncomputable def exChainBlock (pre : Bool) : RotationBlock (Fin 2) :=
  chainBlock 2 1 (chainSetup (fun _ : Unit => exStates) (fun _ => exInitial) (fun _ _ d => (exRow d).u) fun _ => exInput)
    (ardBlockQ pre 1 2 1 2 1 (fun _ : Unit => ()) (fun _ : Fin 2 => ()) (id : Fin 2 ⊕ Fin 1 → _) (fun _ _ => 3) 2 3
      (ardSetupQ (fun _ => ()) (fun _ => ()) (fun _ l => (exRow l).u) fun _ _ i => wrap0 ![0, 0] ![7, 0] i.2))

theorem exChainBlock_gradient (pre : Bool) : BlockGradientAt (exChainBlock pre) exShear :=
  C67_chain_block (P := Unit) (B := Unit) (fun _ _ => ()) (fun _ => exInitial) (fun _ => exInitial_symm) (fun _ => exInput)
    (fun _ _ _ _ => rfl) (fun _ => exStates) (fun _ => exStates_symm) (fun _ => exRow) (fun _ => exRow_consistent) (fun _ => exRow_posDef)
    pre (fun _ => ()) (fun _ => ()) id 1 2 1 (fun _ _ => 3) 2 3 (by norm_num) (fun _ _ _ => ![0, 0]) (by simp) (fun _ _ => ![7, 0])
    (by simp) exShear exShear_det exShear_colSum

/-- the cost of rotating the chain and a loading matrix with one row: the identity as second moment, and unit precisions -/
example (E : Matrix (Fin 2) (Fin 2) ℝ) :
    let b2 : RotationBlock (Fin 2) := ⟨fun R l V => (ardBoundFixed 1 id (fun _ _ => 1) ⟨fun _ : Unit => 1, 0, 0⟩ R l,
      ardGradFixed 1 id (fun _ _ => 1) ⟨fun _ : Unit => 1, 0, 0⟩ R V)⟩
    HasDerivAt (fun t : ℝ => (rotationCost (exChainBlock true) b2 (exShear + t • E)).1)
      (frob (rotationCost (exChainBlock true) b2 exShear).2 E) 0 := by
  intro b2
  exact C67_cost _ _ exShear E exShear_det (exChainBlock_gradient true)
    (BlockGradient.at (C59_ard_fixed 1 id _ _ fun _ => transpose_one) (C46_opposite_args exShear exShear_det).1)

/-- the rows alone along independent curves of the two rotations -/
example (E : Matrix (Fin 2 ⊕ Fin 1) (Fin 2 ⊕ Fin 1) ℝ) (F : Matrix (Fin 2) (Fin 2) ℝ) :
    let f := ardBlockQ false 1 2 1 2 1 (fun _ : Unit => ()) (fun _ : Fin 2 => ()) (id : Fin 2 ⊕ Fin 1 → _) (fun _ _ => 3) 2 3
      (ardSetupQ (fun _ => ()) (fun _ => ()) (fun _ _ => mkG 0 1) fun _ _ i => wrap0 ![0, 0] ![7, 0] i.2)
    HasDerivAt (fun t : ℝ => (f (1 + t • E) (1 + t • E)⁻¹ (slogdet (1 + t • E)) (exShear + t • F)).1)
      (frob (f 1 1⁻¹ (slogdet (1 : Matrix (Fin 2 ⊕ Fin 1) (Fin 2 ⊕ Fin 1) ℝ)) exShear).2.1 E
        + frob (f 1 1⁻¹ (slogdet (1 : Matrix (Fin 2 ⊕ Fin 1) (Fin 2 ⊕ Fin 1) ℝ)) exShear).2.2 F) 0 := by
  intro f
  have z : (1 : Matrix (Fin 2 ⊕ Fin 1) (Fin 2 ⊕ Fin 1) ℝ) + (0 : ℝ) • E = 1 := by rw [zero_smul, add_zero]
  have z' : exShear + (0 : ℝ) • F = exShear := by rw [zero_smul, add_zero]
  have h := C67_ard_plates false 1 2 1 (fun _ : Unit => ()) (fun _ : Fin 2 => ()) (id : Fin 2 ⊕ Fin 1 → _) (fun _ _ => 3) 2 3
    (fun _ _ => mkG 0 1) (fun _ _ => transpose_one) (fun _ _ i => wrap0 ![0, 0] ![7, 0] i.2) (fun t => 1 + t • E) E (curve_line 1 E)
    (by rw [z, det_one]; exact one_ne_zero) (fun t => exShear + t • F) F (curve_line exShear F) (by rw [z']; exact exShear_colSum) (by
      intro q k
      rw [z, z']
      refine ne_of_gt (add_pos_of_pos_of_nonneg (by norm_num) (mul_nonneg (by norm_num) (Finset.sum_nonneg fun i _ => ?_)))
      have e0 : g0 (mkG (0 : Fin 2 ⊕ Fin 1 → ℝ) 1) = 0 := rfl
      have e1 : g1 (mkG (0 : Fin 2 ⊕ Fin 1 → ℝ) 1) = 1 := rfl
      have e2 : (vecMulVec (fun _ => 0) fun _ => 0 : Matrix (Fin 2 ⊕ Fin 1) (Fin 2 ⊕ Fin 1) ℝ) = 0 := by
        ext c d
        simp [vecMulVec_apply]
      simp [ardSquares, ardSumsQ, ardSetupQ, e0, e1, e2, wrap0, Matrix.one_apply]
      positivity)
  simp only [z, z'] at h
  exact h

end

end Verif
