import Mathlib.Analysis.Matrix.Order
import Mathlib.Analysis.SpecialFunctions.Exponential
import Mathlib.LinearAlgebra.Vandermonde
import Mathlib.Algebra.Module.Submodule.Union
import Mathlib.Algebra.Order.Star.Real

/-! # Helper lemmas: the squared exponential kernel is positive definite -/

namespace Verif
open Matrix

variable {N D : ℕ}

/-- the Gram matrix of some points, to an elementwise power -/
theorem gram_pow_posSemidef (x : Fin N → Fin D → ℝ) (n : ℕ) :
    (Matrix.of fun i j => (x i ⬝ᵥ x j) ^ n : Matrix (Fin N) (Fin N) ℝ).PosSemidef := by
  induction n with
  | zero =>
    have h := posSemidef_vecMulVec_self_star (R := ℝ) (fun _ : Fin N => (1 : ℝ))
    have e : (Matrix.of fun i j => (x i ⬝ᵥ x j) ^ 0 : Matrix (Fin N) (Fin N) ℝ) =
        vecMulVec (fun _ => 1) (star fun _ => 1) := by
      ext i j; simp [vecMulVec_apply]
    rw [e]; exact h
  | succ n ih =>
    have hg : (Matrix.of fun i j => x i ⬝ᵥ x j : Matrix (Fin N) (Fin N) ℝ).PosSemidef := by
      have h := posSemidef_self_mul_conjTranspose (R := ℝ) (Matrix.of x)
      have e : (Matrix.of fun i j => x i ⬝ᵥ x j : Matrix (Fin N) (Fin N) ℝ) = Matrix.of x * (Matrix.of x)ᴴ := by
        ext i j; simp [mul_apply, dotProduct]
      rw [e]; exact h
    have e : (Matrix.of fun i j => (x i ⬝ᵥ x j) ^ (n + 1) : Matrix (Fin N) (Fin N) ℝ) =
        (Matrix.of fun i j => (x i ⬝ᵥ x j) ^ n) ⊙ Matrix.of fun i j => x i ⬝ᵥ x j := by
      ext i j; simp [hadamard_apply, pow_succ]
    rw [e]; exact ih.hadamard hg

theorem gram_pow_nonneg (x : Fin N → Fin D → ℝ) (v : Fin N → ℝ) (n : ℕ) :
    0 ≤ ∑ i, ∑ j, v i * v j * (x i ⬝ᵥ x j) ^ n := by
  have h := (gram_pow_posSemidef x n).dotProduct_mulVec_nonneg v
  refine h.trans_eq ?_
  conv_lhs => simp only [dotProduct, mulVec, Matrix.of_apply, Finset.mul_sum, Pi.star_apply, star_trivial]
  exact Finset.sum_congr rfl fun i _ => Finset.sum_congr rfl fun j _ => by simp only [dotProduct]; ring

theorem hasSum_gram (x : Fin N → Fin D → ℝ) (v : Fin N → ℝ) :
    HasSum (fun n : ℕ => (∑ i, ∑ j, v i * v j * (x i ⬝ᵥ x j) ^ n) / n.factorial)
      (∑ i, ∑ j, v i * v j * Real.exp (x i ⬝ᵥ x j)) := by
  have h : ∀ i j, HasSum (fun n : ℕ => v i * v j * ((x i ⬝ᵥ x j) ^ n / n.factorial)) (v i * v j * Real.exp (x i ⬝ᵥ x j)) :=
    fun i j => by
      rw [Real.exp_eq_exp_ℝ]; exact (NormedSpace.expSeries_div_hasSum_exp (x i ⬝ᵥ x j)).mul_left _
  have h2 := hasSum_sum (s := Finset.univ) fun i _ => hasSum_sum (s := Finset.univ) fun j _ => h i j
  convert h2 using 2 with n
  simp only [Finset.sum_div, mul_div_assoc]

theorem exp_gram_nonneg (x : Fin N → Fin D → ℝ) (v : Fin N → ℝ) :
    0 ≤ ∑ i, ∑ j, v i * v j * Real.exp (x i ⬝ᵥ x j) :=
  (hasSum_gram x v).nonneg fun n => div_nonneg (gram_pow_nonneg x v n) (by positivity)

/-- a vector on which the form vanishes is orthogonal to every other point -/
theorem gram_pow_orthogonal (x : Fin N → Fin D → ℝ) (v : Fin N → ℝ) (n : ℕ)
    (h : ∑ i, ∑ j, v i * v j * (x i ⬝ᵥ x j) ^ n = 0) (y : Fin D → ℝ) : ∑ i, v i * (x i ⬝ᵥ y) ^ n = 0 := by
  have key : ∀ t : ℝ, 0 ≤ t * t * (y ⬝ᵥ y) ^ n + 2 * t * ∑ i, v i * (x i ⬝ᵥ y) ^ n := by
    intro t
    have h1 := gram_pow_nonneg (N := N + 1) (Fin.cons y x) (Fin.cons t v) n
    simp only [Fin.sum_univ_succ, Fin.cons_zero, Fin.cons_succ] at h1
    rw [Finset.sum_add_distrib, h] at h1
    have e1 : ∑ i, t * v i * (y ⬝ᵥ x i) ^ n = t * ∑ i, v i * (x i ⬝ᵥ y) ^ n := by
      rw [Finset.mul_sum]; exact Finset.sum_congr rfl fun i _ => by rw [dotProduct_comm]; ring
    have e2 : ∑ i, v i * t * (x i ⬝ᵥ y) ^ n = t * ∑ i, v i * (x i ⬝ᵥ y) ^ n := by
      rw [Finset.mul_sum]; exact Finset.sum_congr rfl fun i _ => by ring
    rw [e1, e2] at h1
    linarith
  generalize (y ⬝ᵥ y) ^ n = q at key
  generalize ∑ i, v i * (x i ⬝ᵥ y) ^ n = s at key ⊢
  by_contra hs
  rcases le_or_gt q 0 with hq | hq
  · have h1 := key (-s)
    nlinarith [mul_self_pos.2 hs, mul_nonneg (mul_self_nonneg s) (neg_nonneg.2 hq)]
  · have h1 := key (-s / q)
    have e : -s / q * (-s / q) * q + 2 * (-s / q) * s = -(s * s / q) := by field_simp; ring
    rw [e] at h1
    have : 0 < s * s / q := div_pos (mul_self_pos.2 hs) hq
    linarith

theorem exists_separating (x : Fin N → Fin D → ℝ) (hx : Function.Injective x) :
    ∃ y : Fin D → ℝ, Function.Injective fun i => x i ⬝ᵥ y := by
  obtain ⟨f, hf⟩ := Module.exists_dual_forall_apply_ne_zero (K := ℝ) (M := Fin D → ℝ)
    (fun p : {p : Fin N × Fin N // p.1 ≠ p.2} => x p.1.1 - x p.1.2) fun p h => p.2 (hx (sub_eq_zero.1 h))
  refine ⟨fun k => f (Pi.single k 1), fun i j hij => ?_⟩
  by_contra hne
  have e : ∀ w : Fin D → ℝ, f w = w ⬝ᵥ fun k => f (Pi.single k 1) := by
    intro w
    conv_lhs => rw [pi_eq_sum_univ' w]
    simp [dotProduct]
  exact hf ⟨(i, j), hne⟩ (by rw [map_sub, e, e]; exact sub_eq_zero.2 hij)

theorem exp_gram_eq_zero (x : Fin N → Fin D → ℝ) (hx : Function.Injective x) (v : Fin N → ℝ)
    (h : ∑ i, ∑ j, v i * v j * Real.exp (x i ⬝ᵥ x j) = 0) : v = 0 := by
  obtain ⟨y, hy⟩ := exists_separating x hx
  have h0 := hasSum_gram x v
  rw [h, hasSum_zero_iff_of_nonneg fun n => div_nonneg (gram_pow_nonneg x v n) (by positivity)] at h0
  refine eq_zero_of_forall_pow_sum_mul_pow_eq_zero hy fun n => gram_pow_orthogonal x v n ?_ y
  have := congrFun h0 n
  simp only [Pi.zero_apply] at this
  exact (div_eq_zero_iff.1 this).resolve_right (by positivity)

/-- the form of the kernel, in terms of the exponentials of the scalar products -/
theorem gaussian_form (x : Fin N → Fin D → ℝ) (v : Fin N → ℝ) :
    ∑ i, ∑ j, v i * v j * Real.exp (-(∑ k, (x i k - x j k) ^ 2) / 2) =
      ∑ i, ∑ j, (v i * Real.exp (-(x i ⬝ᵥ x i) / 2)) * (v j * Real.exp (-(x j ⬝ᵥ x j) / 2)) * Real.exp (x i ⬝ᵥ x j) := by
  refine Finset.sum_congr rfl fun i _ => Finset.sum_congr rfl fun j _ => ?_
  have e : -(∑ k, (x i k - x j k) ^ 2) / 2 = -(x i ⬝ᵥ x i) / 2 + -(x j ⬝ᵥ x j) / 2 + x i ⬝ᵥ x j := by
    have : ∑ k, (x i k - x j k) ^ 2 = x i ⬝ᵥ x i + x j ⬝ᵥ x j - 2 * (x i ⬝ᵥ x j) := by
      simp only [dotProduct, Finset.mul_sum, ← Finset.sum_add_distrib, ← Finset.sum_sub_distrib]
      exact Finset.sum_congr rfl fun k _ => by ring
    rw [this]; ring
  rw [e, Real.exp_add, Real.exp_add]; ring

theorem gaussian_posSemidef (x : Fin N → Fin D → ℝ) :
    (Matrix.of fun i j => Real.exp (-(∑ k, (x i k - x j k) ^ 2) / 2) : Matrix (Fin N) (Fin N) ℝ).PosSemidef := by
  refine .of_dotProduct_mulVec_nonneg ?_ fun v => ?_
  · ext i j
    simp only [conjTranspose_apply, Matrix.of_apply, star_trivial]
    congr 3
    exact Finset.sum_congr rfl fun k _ => by ring
  · have h := exp_gram_nonneg x fun i => v i * Real.exp (-(x i ⬝ᵥ x i) / 2)
    rw [← gaussian_form] at h
    refine h.trans_eq ?_
    simp only [dotProduct, mulVec, Matrix.of_apply, Finset.mul_sum, Pi.star_apply, star_trivial]
    exact Finset.sum_congr rfl fun i _ => Finset.sum_congr rfl fun j _ => by ring

theorem gaussian_posDef (x : Fin N → Fin D → ℝ) (hx : Function.Injective x) :
    (Matrix.of fun i j => Real.exp (-(∑ k, (x i k - x j k) ^ 2) / 2) : Matrix (Fin N) (Fin N) ℝ).PosDef := by
  refine .of_dotProduct_mulVec_pos (gaussian_posSemidef x).isHermitian fun v hv => ?_
  refine lt_of_le_of_ne ((gaussian_posSemidef x).dotProduct_mulVec_nonneg v) fun h => hv ?_
  have h0 := exp_gram_eq_zero x hx (fun i => v i * Real.exp (-(x i ⬝ᵥ x i) / 2)) (by
    rw [← gaussian_form, h]
    simp only [dotProduct, mulVec, Matrix.of_apply, Finset.mul_sum, Pi.star_apply, star_trivial]
    exact Finset.sum_congr rfl fun i _ => Finset.sum_congr rfl fun j _ => by ring)
  funext i
  exact (mul_eq_zero.1 (congrFun h0 i)).resolve_right (Real.exp_pos _).ne'

end Verif
