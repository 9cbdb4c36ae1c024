import Verif.Lemmas.Deriv
import Mathlib.LinearAlgebra.Matrix.Charpoly.Coeff
import Mathlib.LinearAlgebra.Matrix.NonsingularInverse
import Mathlib.Analysis.Matrix.Normed
import Mathlib.Analysis.Calculus.FDeriv.Mul
import Mathlib.Analysis.Calculus.Deriv.Comp
import Mathlib.Analysis.Calculus.Deriv.Polynomial
import Mathlib.Analysis.Calculus.Deriv.Prod
import Mathlib.Analysis.Calculus.Deriv.Pi
import Mathlib.Analysis.SpecialFunctions.Log.Deriv
import Mathlib.Topology.Instances.Matrix

/-!
# Derivatives of the determinant and of the inverse of a matrix along a line
-/

namespace Verif
open Matrix Filter Topology

variable {ι : Type*} [Fintype ι] [DecidableEq ι]

theorem hasDerivAt_det_one_add (M : Matrix ι ι ℝ) : HasDerivAt (fun t : ℝ => (1 + t • M).det) M.trace 0 := by
  have e : (fun t : ℝ => (1 + t • M).det) = fun t : ℝ => 1 + M.trace * t +
      (det (1 + (Polynomial.X : Polynomial ℝ) • M.map Polynomial.C)).divX.divX.eval t * t ^ 2 :=
    funext fun t => Matrix.det_one_add_smul t M
  rw [e]
  set P := (det (1 + (Polynomial.X : Polynomial ℝ) • M.map Polynomial.C)).divX.divX
  have h1 : HasDerivAt (fun t : ℝ => 1 + M.trace * t) (M.trace * 1) 0 := ((hasDerivAt_id (0 : ℝ)).const_mul _).const_add _
  have h2 := (P.hasDerivAt (0 : ℝ)).mul (hasDerivAt_pow 2 (0 : ℝ))
  have h := h1.add h2
  exact hasDerivAt_of_eq h (fun t => rfl) (by simp)

theorem hasDerivAt_log_det (A B : Matrix ι ι ℝ) (hA : 0 < A.det) :
    HasDerivAt (fun t : ℝ => Real.log (A + t • B).det) (A⁻¹ * B).trace 0 := by
  have hu : IsUnit A.det := hA.ne'.isUnit
  have e : (fun t : ℝ => (A + t • B).det) = fun t : ℝ => A.det * (1 + t • (A⁻¹ * B)).det := by
    funext t
    rw [← Matrix.det_mul, Matrix.mul_add, Matrix.mul_one, Matrix.mul_smul, Matrix.mul_nonsing_inv_cancel_left A B hu]
  have h : HasDerivAt (fun t : ℝ => (A + t • B).det) (A.det * (A⁻¹ * B).trace) 0 := by
    rw [e]
    exact (hasDerivAt_det_one_add _).const_mul _
  have h2 := h.log (by simpa using hA.ne')
  simp only [zero_smul, add_zero] at h2
  rwa [mul_div_cancel_left₀ _ hA.ne'] at h2

/-- The difference quotient of the inverse: `(A + tB)⁻¹ = A⁻¹ - t A⁻¹ B (A + tB)⁻¹` where both are invertible. -/
theorem inv_add_smul (A B : Matrix ι ι ℝ) (t : ℝ) (hA : IsUnit A.det) (hB : IsUnit (A + t • B).det) :
    (A + t • B)⁻¹ = A⁻¹ - t • (A⁻¹ * B * (A + t • B)⁻¹) := by
  have h : A⁻¹ * (A + t • B) * (A + t • B)⁻¹ = A⁻¹ := Matrix.mul_nonsing_inv_cancel_right _ _ hB
  rw [Matrix.mul_add, Matrix.nonsing_inv_mul A hA, Matrix.add_mul, Matrix.one_mul, Matrix.mul_smul, Matrix.smul_mul] at h
  exact eq_sub_of_add_eq h

theorem continuousAt_inv_line (A B : Matrix ι ι ℝ) (hA : IsUnit A.det) :
    ContinuousAt (fun t : ℝ => (A + t • B)⁻¹) 0 := by
  have hc : Continuous fun t : ℝ => A + t • B := by fun_prop
  simp only [Matrix.inv_def, Ring.inverse_eq_inv']
  refine ContinuousAt.smul (f := fun t : ℝ => (A + t • B).det⁻¹) ?_ hc.matrix_adjugate.continuousAt
  refine hc.matrix_det.continuousAt.inv₀ ?_
  simpa using hA.ne_zero

theorem eventually_isUnit_line (A B : Matrix ι ι ℝ) (hA : IsUnit A.det) : ∀ᶠ t : ℝ in 𝓝 0, IsUnit (A + t • B).det := by
  have hc : Continuous fun t : ℝ => (A + t • B).det := (by fun_prop : Continuous fun t : ℝ => A + t • B).matrix_det
  have : ∀ᶠ t : ℝ in 𝓝 0, (A + t • B).det ≠ 0 := hc.continuousAt.eventually_ne (by simpa using hA.ne_zero)
  exact this.mono fun t ht => ht.isUnit

theorem hasDerivAt_inv_entry (A B : Matrix ι ι ℝ) (hA : IsUnit A.det) (i j : ι) :
    HasDerivAt (fun t : ℝ => (A + t • B)⁻¹ i j) (-(A⁻¹ * B * A⁻¹) i j) 0 := by
  rw [hasDerivAt_iff_tendsto_slope_zero]
  have hc : Tendsto (fun t : ℝ => -(A⁻¹ * B * (A + t • B)⁻¹) i j) (𝓝[≠] 0) (𝓝 (-(A⁻¹ * B * A⁻¹) i j)) := by
    have h1 := continuousAt_inv_line A B hA
    have h2 : ContinuousAt (fun t : ℝ => A⁻¹ * B * (A + t • B)⁻¹) 0 :=
      (continuous_const.matrix_mul continuous_id).continuousAt.comp h1
    have h3 : ContinuousAt (fun t : ℝ => -(A⁻¹ * B * (A + t • B)⁻¹) i j) 0 :=
      ((continuous_id.matrix_elem i j).neg.continuousAt (x := _)).comp h2
    have := h3.tendsto
    simp only [zero_smul, add_zero] at this
    exact this.mono_left nhdsWithin_le_nhds
  refine hc.congr' ?_
  have hu := (eventually_isUnit_line A B hA).filter_mono (nhdsWithin_le_nhds (s := {0}ᶜ))
  filter_upwards [hu, self_mem_nhdsWithin] with t ht h0
  have h0' : t ≠ 0 := h0
  simp only [zero_add, zero_smul, add_zero]
  have e := congrFun (congrFun (inv_add_smul A B t hA ht) i) j
  rw [e]
  simp only [Matrix.sub_apply, Matrix.smul_apply, smul_eq_mul]
  field_simp
  ring

/-- The derivative of `aᵀ A⁻¹ a` along a line, for a symmetric matrix. -/
theorem hasDerivAt_quad_inv (A B : Matrix ι ι ℝ) (a b : ι → ℝ) (hA : IsUnit A.det) (hs : A.transpose = A) :
    HasDerivAt (fun t : ℝ => (A + t • B)⁻¹.mulVec (a + t • b) ⬝ᵥ (a + t • b))
      (2 * (A⁻¹.mulVec a ⬝ᵥ b) - A⁻¹.mulVec a ⬝ᵥ B.mulVec (A⁻¹.mulVec a)) 0 := by
  have ha : ∀ i, HasDerivAt (fun t : ℝ => a i + t * b i) (b i) 0 := fun i => by
    simpa using ((hasDerivAt_id (0 : ℝ)).mul_const (b i)).const_add (a i)
  have h : HasDerivAt (fun t : ℝ => ∑ i, ∑ j, (A + t • B)⁻¹ i j * (a j + t * b j) * (a i + t * b i))
      (∑ i, ∑ j, ((-(A⁻¹ * B * A⁻¹) i j * a j + A⁻¹ i j * b j) * a i + A⁻¹ i j * a j * b i)) 0 := by
    have h1 : ∀ i j, HasDerivAt (fun t : ℝ => (A + t • B)⁻¹ i j * (a j + t * b j) * (a i + t * b i))
        ((-(A⁻¹ * B * A⁻¹) i j * a j + A⁻¹ i j * b j) * a i + A⁻¹ i j * a j * b i) 0 := by
      intro i j
      have := ((hasDerivAt_inv_entry A B hA i j).mul (ha j)).mul (ha i)
      exact hasDerivAt_of_eq this (fun t => rfl) (by simp)
    have h2 : ∀ i, HasDerivAt (fun t : ℝ => ∑ j, (A + t • B)⁻¹ i j * (a j + t * b j) * (a i + t * b i))
        (∑ j, ((-(A⁻¹ * B * A⁻¹) i j * a j + A⁻¹ i j * b j) * a i + A⁻¹ i j * a j * b i)) 0 := fun i =>
      HasDerivAt.fun_sum fun j _ => h1 i j
    exact HasDerivAt.fun_sum fun i _ => h2 i
  have hsi : A⁻¹.transpose = A⁻¹ := by rw [Matrix.transpose_nonsing_inv, hs]
  have e1 : (fun t : ℝ => (A + t • B)⁻¹.mulVec (a + t • b) ⬝ᵥ (a + t • b))
      = fun t : ℝ => ∑ i, ∑ j, (A + t • B)⁻¹ i j * (a j + t * b j) * (a i + t * b i) := by
    funext t
    simp only [dotProduct, Matrix.mulVec, Finset.sum_mul, Pi.add_apply, Pi.smul_apply, smul_eq_mul]
  have e2 : ∑ i, ∑ j, ((-(A⁻¹ * B * A⁻¹) i j * a j + A⁻¹ i j * b j) * a i + A⁻¹ i j * a j * b i)
      = -((A⁻¹ * B * A⁻¹).mulVec a ⬝ᵥ a) + A⁻¹.mulVec b ⬝ᵥ a + A⁻¹.mulVec a ⬝ᵥ b := by
    simp only [dotProduct, Matrix.mulVec, Finset.sum_mul, add_mul, Finset.sum_add_distrib, neg_mul, Finset.sum_neg_distrib]
  have e3 : A⁻¹.mulVec b ⬝ᵥ a = A⁻¹.mulVec a ⬝ᵥ b := by
    rw [dotProduct_comm, Matrix.dotProduct_mulVec, ← Matrix.mulVec_transpose, hsi]
  have e4 : (A⁻¹ * B * A⁻¹).mulVec a ⬝ᵥ a = A⁻¹.mulVec a ⬝ᵥ B.mulVec (A⁻¹.mulVec a) := by
    rw [dotProduct_comm, ← Matrix.mulVec_mulVec, ← Matrix.mulVec_mulVec, Matrix.dotProduct_mulVec, ← Matrix.mulVec_transpose,
      hsi]
  rw [e1, show 2 * (A⁻¹.mulVec a ⬝ᵥ b) - A⁻¹.mulVec a ⬝ᵥ B.mulVec (A⁻¹.mulVec a)
    = -((A⁻¹ * B * A⁻¹).mulVec a ⬝ᵥ a) + A⁻¹.mulVec b ⬝ᵥ a + A⁻¹.mulVec a ⬝ᵥ b by rw [e3, e4]; ring, ← e2]
  exact h

end Verif
