import Verif.Props.Rotate
import Mathlib.Logic.Equiv.Fin.Basic
import Mathlib.Algebra.BigOperators.Fin

/-!
# C46: rotations of one axis of an array, of both sides of a matrix, and of Markov chains
-/

namespace Verif
open Matrix Spec
open scoped Kronecker

section
variable {r : Nat} {dims : Fin r → Nat}

/-- The matrix which acts on one axis of the array. -/
def Spec.axisMat (k : Fin r) (R : Matrix (Fin (dims k)) (Fin (dims k)) ℝ) :
    Matrix (∀ l, Fin (dims l)) (∀ l, Fin (dims l)) ℝ :=
  of fun x y => R (x k) (y k) * if ∀ l, l ≠ k → x l = y l then 1 else 0

theorem axisMat_eq (k : Fin r) (R : Matrix (Fin (dims k)) (Fin (dims k)) ℝ) :
    axisMat k R = (R ⊗ₖ (1 : Matrix (∀ l : {l // l ≠ k}, Fin (dims l)) _ ℝ)).submatrix
      (Equiv.piSplitAt k fun l => Fin (dims l)) (Equiv.piSplitAt k fun l => Fin (dims l)) := by
  ext x y
  rw [submatrix_apply, kronecker_apply, one_apply]
  refine congrArg (fun t => R (x k) (y k) * t) ?_
  refine if_congr ⟨fun h => funext fun l => h l l.2, fun h l hl => congrFun h ⟨l, hl⟩⟩ rfl rfl

theorem piSplitAt_symm (k : Fin r) (x : ∀ l, Fin (dims l)) (j : Fin (dims k)) :
    (Equiv.piSplitAt k fun l => Fin (dims l)).symm (j, (Equiv.piSplitAt k (fun l => Fin (dims l)) x).2)
      = Function.update x k j := by
  funext l
  by_cases h : l = k
  · subst h
    simp [Equiv.piSplitAt]
  · simp [Equiv.piSplitAt, h]

theorem axisMat_mulVec (k : Fin r) (R : Matrix (Fin (dims k)) (Fin (dims k)) ℝ) (mu : (∀ l, Fin (dims l)) → ℝ) :
    axisMat k R *ᵥ mu = rotateMean k R mu := by
  funext x
  unfold rotateMean
  rw [mulVec, dotProduct, ← (Equiv.piSplitAt k fun l => Fin (dims l)).symm.sum_comp, Fintype.sum_prod_type]
  refine Finset.sum_congr rfl fun j _ => ?_
  rw [Finset.sum_eq_single (Equiv.piSplitAt k (fun l => Fin (dims l)) x).2]
  · rw [piSplitAt_symm]
    unfold axisMat
    rw [of_apply, if_pos (fun l hl => by rw [Function.update_of_ne hl]), Function.update_self, mul_one]
  · intro z _ hz
    unfold axisMat
    rw [of_apply, if_neg, mul_zero, zero_mul]
    intro h
    apply hz
    funext l
    have := h l l.2
    simp only [Equiv.piSplitAt, Equiv.coe_fn_symm_mk, l.2, dif_neg, not_false_eq_true] at this
    exact this.symm
  · simp

theorem axisMat_cov (k : Fin r) (R : Matrix (Fin (dims k)) (Fin (dims k)) ℝ)
    (C : Matrix (∀ l, Fin (dims l)) (∀ l, Fin (dims l)) ℝ) : axisMat k R * C * (axisMat k R)ᵀ = rotateCovariance k R C := by
  ext x y
  have h1 : ∀ z, (axisMat k R * C) x z = ∑ j, R (x k) j * C (Function.update x k j) z := fun z =>
    congrFun (axisMat_mulVec k R fun w => C w z) x
  have h2 : (axisMat k R * C * (axisMat k R)ᵀ) x y = (axisMat k R *ᵥ fun z => (axisMat k R * C) x z) y := by
    rw [Matrix.mul_apply, mulVec, dotProduct]
    exact Finset.sum_congr rfl fun z _ => mul_comm _ _
  rw [h2, axisMat_mulVec]
  unfold rotateMean rotateCovariance
  simp only [h1]

theorem axisMat_mul (k : Fin r) (R S : Matrix (Fin (dims k)) (Fin (dims k)) ℝ) :
    axisMat k R * axisMat k S = axisMat k (R * S) := by
  rw [axisMat_eq, axisMat_eq, axisMat_eq, submatrix_mul_equiv, ← mul_kronecker_mul, Matrix.one_mul]

theorem axisMat_one (k : Fin r) : axisMat (dims := dims) k 1 = 1 := by
  rw [axisMat_eq, one_kronecker_one, submatrix_one_equiv]

theorem axisMat_transpose (k : Fin r) (R : Matrix (Fin (dims k)) (Fin (dims k)) ℝ) : (axisMat k R)ᵀ = axisMat k Rᵀ := by
  ext x y
  unfold axisMat
  rw [transpose_apply, of_apply, of_apply, transpose_apply]
  congr 1
  exact if_congr ⟨fun h l hl => (h l hl).symm, fun h l hl => (h l hl).symm⟩ rfl rfl

theorem prod_eraseIdx : ∀ {r : Nat} (f : Fin r → ℕ) (k : Fin r),
    ((List.ofFn f).eraseIdx k).prod = ∏ l : {l // l ≠ k}, f l
  | n + 1, f, k => by
    have h : (List.ofFn f).eraseIdx k = List.ofFn fun i => f (k.succAbove i) := by
      apply List.ext_getElem
      · simp [List.length_eraseIdx]
        omega
      · intro i h1 h2
        rw [List.getElem_eraseIdx]
        simp only [List.getElem_ofFn]
        split <;> rename_i hi
        · congr 1
          ext
          simp [Fin.succAbove, Fin.lt_def, hi]
        · congr 1
          ext
          simp [Fin.succAbove, Fin.lt_def, hi]
    rw [h, List.prod_ofFn]
    exact Equiv.prod_comp (finSuccAboveEquiv k) fun l => f l

theorem axisMat_det (k : Fin r) (R : Matrix (Fin (dims k)) (Fin (dims k)) ℝ) :
    (axisMat k R).det = R.det ^ ((List.ofFn dims).eraseIdx k).prod := by
  rw [axisMat_eq, det_submatrix_equiv_self, det_kronecker, det_one, one_pow, mul_one, prod_eraseIdx]
  congr 1
  simp

theorem axisMat_inv (k : Fin r) (R : Matrix (Fin (dims k)) (Fin (dims k)) ℝ) (hR : R.det ≠ 0) :
    (axisMat k R)⁻¹ = axisMat k R⁻¹ := by
  apply inv_eq_left_inv
  rw [axisMat_mul, nonsing_inv_mul _ hR.isUnit, axisMat_one]

/-- Rotating one axis is a rotation of the whole array by the matrix which acts on that axis. -/
theorem ardRotate_eq (k : Fin r) (R : Matrix (Fin (dims k)) (Fin (dims k)) ℝ) (hR : R.det ≠ 0)
    (inv : Option (Matrix (Fin (dims k)) (Fin (dims k)) ℝ)) (logdet : Option ℝ) (ha : GoodArgs R inv logdet)
    (s : ExpState (GIx (∀ l, Fin (dims l)))) : ardRotate k R inv logdet s = gaussianRotate (axisMat k R) none none s := by
  obtain ⟨e1, e2⟩ := goodArgs_eq ha
  have et : (axisMat k R)⁻¹ᵀ = axisMat k R⁻¹ᵀ := by rw [axisMat_inv k R hR, axisMat_transpose]
  have et2 : (axisMat k R)⁻¹ = (axisMat k R⁻¹ᵀ)ᵀ := by rw [axisMat_inv k R hR, axisMat_transpose, transpose_transpose]
  unfold ardRotate gaussianRotate
  simp only [e1, e2, Option.getD_none]
  rw [slogdet, et, axisMat_mulVec, axisMat_mulVec, axisMat_cov, et2, axisMat_cov, axisMat_det, Real.log_pow, mul_comm]

/-- **C46** `GaussianARD.rotate`, for any number of variable axes and any axis -/
theorem C46_gaussian_ard_rotate (k : Fin r) (R : Matrix (Fin (dims k)) (Fin (dims k)) ℝ) (hR : R.det ≠ 0)
    (inv : Option (Matrix (Fin (dims k)) (Fin (dims k)) ℝ)) (logdet : Option ℝ) (ha : GoodArgs R inv logdet)
    (s : ExpState (GIx (∀ l, Fin (dims l)))) (hs : StateConsistent gaussianMoments gaussianCgf s)
    (hp : ((-2 : ℝ) • g1 s.phi).PosDef) :
    StateConsistent gaussianMoments gaussianCgf (ardRotate k R inv logdet s)
      ∧ ((-2 : ℝ) • g1 (ardRotate k R inv logdet s).phi).PosDef := by
  rw [ardRotate_eq k R hR inv logdet ha]
  refine C46_gaussian_rotate _ ?_ none none ⟨nofun, nofun⟩ s hs hp
  rw [axisMat_det]
  exact pow_ne_zero _ hR

/-- **C46** Rotating the axis back restores the node. -/
theorem C46_gaussian_ard_rotate_back (k : Fin r) (R : Matrix (Fin (dims k)) (Fin (dims k)) ℝ) (hR : R.det ≠ 0)
    (s : ExpState (GIx (∀ l, Fin (dims l)))) : ardRotate k R⁻¹ none none (ardRotate k R none none s) = s := by
  have hR' : R⁻¹.det ≠ 0 := by rw [det_nonsing_inv]; simpa using hR
  rw [ardRotate_eq k R hR none none ⟨nofun, nofun⟩, ardRotate_eq k R⁻¹ hR' none none ⟨nofun, nofun⟩, ← axisMat_inv k R hR]
  refine C46_gaussian_rotate_back _ ?_ s
  rw [axisMat_det]
  exact pow_ne_zero _ hR

/-- The axis counts from either end, as in NumPy. -/
theorem C46_axis (axis : Int) (k : Fin r) : axisOf r axis = .ok k ↔ axis = k ∨ axis = (k : Int) - r := by
  have := k.2
  unfold axisOf
  split <;> rename_i h
  · simp only [reduceCtorEq, false_iff]
    omega
  · simp only [Except.ok.injEq, Fin.ext_iff]
    split <;> omega

theorem C46_axis_raises (axis : Int) : axisOf r axis = .error .valueError ↔ ¬(-(r : Int) ≤ axis ∧ axis < r) := by
  unfold axisOf
  split <;> rename_i h
  · simp only [true_iff]; omega
  · simp only [reduceCtorEq, false_iff]; omega

end

/-! ### a vector as a matrix -/

section
variable {α β : Type*} [Fintype α] [DecidableEq α] [Fintype β] [DecidableEq β]

theorem sum_kron (A : Matrix α α ℝ) (B : Matrix β β ℝ) (f : α × β → ℝ) (a : α) (b : β) :
    ∑ p, (A ⊗ₖ B) (a, b) p * f p = ∑ c, A a c * ∑ d, B b d * f (c, d) := by
  rw [Fintype.sum_prod_type]
  refine Finset.sum_congr rfl fun c _ => ?_
  rw [Finset.mul_sum]
  exact Finset.sum_congr rfl fun d _ => by rw [kronecker_apply]; ring

omit [DecidableEq α] [DecidableEq β] in
theorem four_sums (P1 Q1 : α → ℝ) (P2 Q2 : β → ℝ) (f : α → β → α → β → ℝ) :
    ∑ d, Q2 d * ∑ b, P2 b * ∑ c, Q1 c * ∑ a, P1 a * f a b c d = ∑ c, Q1 c * ∑ d, Q2 d * ∑ a, P1 a * ∑ b, P2 b * f a b c d := by
  simp only [Finset.mul_sum]
  conv_rhs => rw [Finset.sum_comm]
  refine Finset.sum_congr rfl fun d _ => ?_
  conv_lhs => rw [Finset.sum_comm]
  refine Finset.sum_congr rfl fun c _ => ?_
  conv_lhs => rw [Finset.sum_comm]
  exact Finset.sum_congr rfl fun a _ => Finset.sum_congr rfl fun b _ => by ring

theorem kron_transpose (A : Matrix α α ℝ) (B : Matrix β β ℝ) : (A ⊗ₖ B)ᵀ = Aᵀ ⊗ₖ Bᵀ := by
  ext p q; rfl

/-- **C46** `Gaussian.rotate_matrix` is the rotation of the vector by the Kronecker product, so that the matrix `X` becomes
`R1 X R2ᵀ`. -/
theorem C46_rotate_matrix (R1 : Matrix α α ℝ) (R2 : Matrix β β ℝ) (h1 : R1.det ≠ 0) (h2 : R2.det ≠ 0)
    (s : ExpState (GIx (α × β))) (hs : StateConsistent gaussianMoments gaussianCgf s) (hp : ((-2 : ℝ) • g1 s.phi).PosDef) :
    gaussianRotateMatrix R1 R2 s = gaussianRotate (R1 ⊗ₖ R2) none none s
      ∧ (of fun a b => g0 (gaussianRotateMatrix R1 R2 s).u (a, b)) = R1 * (of fun a b => g0 s.u (a, b)) * R2ᵀ := by
  have hK : (R1 ⊗ₖ R2).det ≠ 0 := by
    rw [det_kronecker]
    exact mul_ne_zero (pow_ne_zero _ h1) (pow_ne_zero _ h2)
  have e : rotateMatrixPhi R1 R2 s.phi = (gaussianRotate (R1 ⊗ₖ R2) none none s).phi := by
    unfold rotateMatrixPhi gaussianRotate
    simp only [Option.getD_none]
    rw [inv_kronecker, kron_transpose]
    congr 1
    · funext p
      obtain ⟨a, b⟩ := p
      rw [mulVec, dotProduct, sum_kron]
      change ∑ d, (∑ c, R1⁻¹ᵀ a c * g0 s.phi (c, d)) * R2⁻¹ d b = ∑ c, R1⁻¹ᵀ a c * ∑ d, R2⁻¹ d b * g0 s.phi (c, d)
      simp only [Finset.sum_mul, Finset.mul_sum]
      rw [Finset.sum_comm]
      exact Finset.sum_congr rfl fun c _ => Finset.sum_congr rfl fun d _ => by ring
    · funext p q
      obtain ⟨a, b⟩ := p
      obtain ⟨c, d⟩ := q
      have e1 : ∀ x, ((R1⁻¹ᵀ ⊗ₖ R2⁻¹ᵀ) * g1 s.phi) (a, b) x = ∑ i, R1⁻¹ᵀ a i * ∑ j, R2⁻¹ᵀ b j * g1 s.phi (i, j) x := fun x => by
        rw [Matrix.mul_apply, sum_kron]
      have e2 : ((R1⁻¹ᵀ ⊗ₖ R2⁻¹ᵀ) * g1 s.phi * (R1⁻¹ ⊗ₖ R2⁻¹)) (a, b) (c, d)
          = ∑ k, R1⁻¹ᵀ c k * ∑ l, R2⁻¹ᵀ d l * ((R1⁻¹ᵀ ⊗ₖ R2⁻¹ᵀ) * g1 s.phi) (a, b) (k, l) := by
        rw [Matrix.mul_apply, ← sum_kron, ← kron_transpose]
        exact Finset.sum_congr rfl fun x _ => by rw [transpose_apply]; ring
      rw [e2]
      simp only [e1]
      exact four_sums _ _ _ _ fun a b c d => g1 s.phi (a, b) (c, d)
  have e' : gaussianRotateMatrix R1 R2 s = gaussianRotate (R1 ⊗ₖ R2) none none s := by
    obtain ⟨⟨h3, h4⟩, -⟩ := C46_gaussian_rotate (R1 ⊗ₖ R2) hK none none ⟨nofun, nofun⟩ s hs hp
    unfold gaussianRotateMatrix
    rw [e]
    exact ExpState.ext h3.symm rfl h4.symm
  refine ⟨e', ?_⟩
  rw [e']
  ext a b
  change ((R1 ⊗ₖ R2) *ᵥ g0 s.u) (a, b) = _
  rw [mulVec, dotProduct, sum_kron]
  change _ = ∑ d, (∑ c, R1 a c * g0 s.u (c, d)) * R2 b d
  simp only [Finset.sum_mul, Finset.mul_sum]
  rw [Finset.sum_comm]
  exact Finset.sum_congr rfl fun c _ => Finset.sum_congr rfl fun d _ => by ring

end

/-! ### rotation of the plates -/

/-- **C46** The documented behaviour of a plate rotation: the mean of plate `d` is exactly `R` times the combination of
the means with the weights of row `d` of `Q`; the covariance is rotated by `R` and scaled by the square of a sum of `Q`;
the stored values are consistent. -/
theorem C46_gaussian_rotate_plates {P : Nat} {ι : Type*} [Fintype ι] [DecidableEq ι] (R : Matrix ι ι ℝ) (hR : R.det ≠ 0)
    (inv : Option (Matrix ι ι ℝ)) (ha : GoodArgs R inv none) (Q : Matrix (Fin P) (Fin P) ℝ) (s : Fin P → ExpState (GIx ι))
    (hp : ∀ d, ((-2 : ℝ) • g1 (s d).phi).PosDef) (hQ : ∀ d, ∑ i, Q i d ≠ 0) (d : Fin P) :
    StateConsistent gaussianMoments gaussianCgf (gaussianRotateQ R inv Q s d)
      ∧ g0 (gaussianRotateQ R inv Q s d).u = R *ᵥ (fun j => ∑ k, Q d k * g0 (s k).u j)
      ∧ ((-2 : ℝ) • g1 (gaussianRotateQ R inv Q s d).phi)⁻¹ = (∑ i, Q i d) ^ 2 • (R * ((-2 : ℝ) • g1 (s d).phi)⁻¹ * Rᵀ) := by
  obtain ⟨e1, -⟩ := goodArgs_eq ha
  have hu := (hp d).det_pos.ne'.isUnit
  have h2 : (∑ i, Q i d) ^ (-2 : ℤ) ≠ 0 := zpow_ne_zero _ (hQ d)
  have hm : (-2 : ℝ) • ((∑ i, Q i d) ^ (-2 : ℤ) • g1 (s d).phi) = (∑ i, Q i d) ^ (-2 : ℤ) • ((-2 : ℝ) • g1 (s d).phi) :=
    smul_comm _ _ _
  have hinv : ((∑ i, Q i d) ^ (-2 : ℤ) • ((-2 : ℝ) • g1 (s d).phi))⁻¹ = (∑ i, Q i d) ^ 2 • ((-2 : ℝ) • g1 (s d).phi)⁻¹ := by
    apply inv_eq_left_inv
    rw [Matrix.mul_smul, Matrix.smul_mul, smul_smul, nonsing_inv_mul _ hu, ← zpow_natCast, ← zpow_add₀ (hQ d)]
    simp
  refine ⟨⟨rfl, rfl⟩, ?_, ?_⟩
  · unfold gaussianRotateQ
    simp only [e1]
    unfold gaussianMoments
    simp only [mkG_g0, mkG_g1]
    have hk : ∀ v, ((∑ i, Q i d) ^ 2 • ((-2 : ℝ) • g1 (s d).phi)⁻¹) *ᵥ (((∑ i, Q i d) ^ (-2 : ℤ) • ((-2 : ℝ) • g1 (s d).phi)) *ᵥ v) = v := by
      intro v
      rw [← hinv, mulVec_mulVec, nonsing_inv_mul, one_mulVec]
      rw [det_smul]
      exact (mul_ne_zero (pow_ne_zero _ h2) hu.ne_zero).isUnit
    rw [rotate_prec, rotate_inv hR, rotate_mean hR, hm, hinv, hk]
  · unfold gaussianRotateQ
    simp only [e1, mkG_g1]
    rw [rotate_prec, rotate_inv hR, hm, hinv, Matrix.mul_smul, Matrix.smul_mul]

end Verif
