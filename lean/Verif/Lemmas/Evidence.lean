import Mathlib.MeasureTheory.Integral.Pi
import Mathlib.MeasureTheory.Integral.Bochner.Basic
import Mathlib.Analysis.SpecialFunctions.Log.Basic
import Mathlib.Data.Matrix.Mul

/-!
# Expectations of products of independent variables, and Jensen's inequality for the evidence
-/

namespace Verif
open MeasureTheory

section
variable {E : Type*} [Fintype E] [DecidableEq E] {I : E → Type*} [∀ e, Fintype (I e)]
  {X : E → Type*} [∀ e, MeasurableSpace (X e)] (ν : ∀ e, Measure (X e)) [∀ e, SigmaFinite (ν e)]

/-- A function which is affine in each of its vectors is given by its values at zero and at the unit vectors. -/
theorem affine_values {J : Type*} [Fintype J] [DecidableEq J] (f : (J → ℝ) → ℝ) (h : ∃ a b, ∀ v, f v = a ⬝ᵥ v + b) (v : J → ℝ) :
    f v = ∑ i, v i * (f (Pi.single i 1) - f 0) + f 0 := by
  obtain ⟨a, b, hf⟩ := h
  simp only [hf, dotProduct_zero, zero_add, dotProduct_single, mul_one, add_sub_cancel_right]
  congr 1
  exact Finset.sum_congr rfl fun i _ => mul_comm _ _

omit [∀ e, MeasurableSpace (X e)] in
theorem prod_update_mul (r : ∀ e, X e → ℝ) (e0 : E) (t : X e0 → ℝ) (z : ∀ e, X e) :
    ∏ e, Function.update r e0 (fun x => r e0 x * t x) e (z e) = (∏ e, r e (z e)) * t (z e0) := by
  rw [← Finset.mul_prod_erase _ _ (Finset.mem_univ e0), ← Finset.mul_prod_erase _ (fun e => r e (z e)) (Finset.mem_univ e0),
    Function.update_self]
  rw [Finset.prod_congr rfl fun e he => by rw [Function.update_of_ne (Finset.ne_of_mem_erase he)]]
  ring

omit [∀ e, SigmaFinite (ν e)] in
theorem prod_integral_update (r : ∀ e, X e → ℝ) (e0 : E) (t : X e0 → ℝ) (c : ℝ) (h1 : ∫ x, r e0 x ∂ν e0 = 1)
    (ht : ∫ x, r e0 x * t x ∂ν e0 = c) :
    ∏ e, ∫ x, Function.update r e0 (fun x => r e0 x * t x) e x ∂ν e = (∏ e, ∫ x, r e x ∂ν e) * c := by
  rw [← Finset.mul_prod_erase _ _ (Finset.mem_univ e0), ← Finset.mul_prod_erase _ (fun e => ∫ x, r e x ∂ν e) (Finset.mem_univ e0),
    Function.update_self, h1, ht]
  rw [Finset.prod_congr rfl fun e he => by rw [Function.update_of_ne (Finset.ne_of_mem_erase he)]]
  ring

theorem multiAffine_step (q : ∀ e, X e → ℝ) (T : ∀ e, X e → I e → ℝ) (mean : ∀ e, I e → ℝ)
    (hq1 : ∀ e, ∫ x, q e x ∂ν e = 1) (hT : ∀ e i, Integrable (fun x => q e x * T e x i) (ν e))
    (hm : ∀ e i, ∫ x, q e x * T e x i ∂ν e = mean e i)
    (F : (∀ e, I e → ℝ) → ℝ) (hF : ∀ u e, ∃ a b, ∀ v, F (Function.update u e v) = a ⬝ᵥ v + b) (S : Finset E) :
    ∀ r : ∀ e, X e → ℝ, (∀ e, Integrable (r e) (ν e)) → (∀ e ∈ S, r e = q e) → ∀ u : ∀ e, I e → ℝ,
      Integrable (fun z : ∀ e, X e => (∏ e, r e (z e)) * F (fun e => if e ∈ S then T e (z e) else u e)) (Measure.pi ν) ∧
      ∫ z, (∏ e, r e (z e)) * F (fun e => if e ∈ S then T e (z e) else u e) ∂(Measure.pi ν)
        = (∏ e, ∫ x, r e x ∂ν e) * F (fun e => if e ∈ S then mean e else u e) := by
  classical
  induction S using Finset.induction_on with
  | empty =>
    intro r hr _ u
    simp only [Finset.notMem_empty, if_false]
    exact ⟨(Integrable.fintype_prod_dep hr).mul_const _, by rw [integral_mul_const, integral_fintype_prod_eq_prod]⟩
  | insert e0 S he0 ih =>
    intro r hr hrq u
    have hr0 : r e0 = q e0 := hrq e0 (Finset.mem_insert_self _ _)
    have hrS : ∀ e ∈ S, r e = q e := fun e he => hrq e (Finset.mem_insert_of_mem he)
    have hne : ∀ e ∈ S, e ≠ e0 := fun e he h => he0 (h ▸ he)
    have mixE : ∀ (w : ∀ e, I e → ℝ), (fun e => if e ∈ insert e0 S then w e else u e)
        = Function.update (fun e => if e ∈ S then w e else u e) e0 (w e0) := by
      intro w
      funext e
      by_cases h : e = e0
      · subst h; simp
      · rw [Function.update_of_ne h]; simp [h]
    have updE : ∀ (w : ∀ e, I e → ℝ) (c : I e0 → ℝ), Function.update (fun e => if e ∈ S then w e else u e) e0 c
        = fun e => if e ∈ S then w e else Function.update u e0 c e := by
      intro w c
      funext e
      by_cases h : e = e0
      · subst h; simp [he0]
      · rw [Function.update_of_ne h, Function.update_of_ne h]
    let r' : I e0 → ∀ e, X e → ℝ := fun i => Function.update r e0 fun x => r e0 x * T e0 x i
    have hr' : ∀ i e, Integrable (r' i e) (ν e) := by
      intro i e
      by_cases h : e = e0
      · subst h
        simp only [r', Function.update_self, hr0]
        exact hT e i
      · simp only [r']
        rw [Function.update_of_ne h]
        exact hr e
    have hrS' : ∀ i, ∀ e ∈ S, r' i e = q e := by
      intro i e he
      simp only [r']
      rw [Function.update_of_ne (hne e he), hrS e he]
    -- the values of `F` as a combination of values with a constant vector at `e0`
    have key : ∀ (w : ∀ e, I e → ℝ), F (fun e => if e ∈ insert e0 S then w e else u e)
        = ∑ i, w e0 i * (F (fun e => if e ∈ S then w e else Function.update u e0 (Pi.single i 1) e)
            - F (fun e => if e ∈ S then w e else Function.update u e0 0 e))
          + F (fun e => if e ∈ S then w e else Function.update u e0 0 e) := by
      intro w
      rw [mixE, affine_values (fun v => F (Function.update (fun e => if e ∈ S then w e else u e) e0 v)) (hF _ _) (w e0)]
      simp only [updE]
    have e1 : (fun z : ∀ e, X e => (∏ e, r e (z e)) * F (fun e => if e ∈ insert e0 S then T e (z e) else u e))
        = fun z => ∑ i, ((∏ e, r' i e (z e)) * F (fun e => if e ∈ S then T e (z e) else Function.update u e0 (Pi.single i 1) e)
            - (∏ e, r' i e (z e)) * F (fun e => if e ∈ S then T e (z e) else Function.update u e0 0 e))
          + (∏ e, r e (z e)) * F (fun e => if e ∈ S then T e (z e) else Function.update u e0 0 e) := by
      funext z
      rw [key fun e => T e (z e), mul_add, Finset.mul_sum]
      congr 1
      refine Finset.sum_congr rfl fun i _ => ?_
      have : ∏ e, r' i e (z e) = (∏ e, r e (z e)) * T e0 (z e0) i := prod_update_mul r e0 (fun x => T e0 x i) z
      rw [this]
      ring
    have i1 := fun i => ih (r' i) (hr' i) (hrS' i) (Function.update u e0 (Pi.single i 1))
    have i2 := fun i => ih (r' i) (hr' i) (hrS' i) (Function.update u e0 0)
    have i3 := ih r hr hrS (Function.update u e0 0)
    have is : ∀ i ∈ Finset.univ, Integrable (fun z : ∀ e, X e =>
        (∏ e, r' i e (z e)) * F (fun e => if e ∈ S then T e (z e) else Function.update u e0 (Pi.single i 1) e)
          - (∏ e, r' i e (z e)) * F (fun e => if e ∈ S then T e (z e) else Function.update u e0 0 e)) (Measure.pi ν) :=
      fun i _ => (i1 i).1.sub (i2 i).1
    constructor
    · rw [e1]
      exact (integrable_finsetSum _ is).add i3.1
    · rw [e1, integral_add (integrable_finsetSum _ is) i3.1, integral_finsetSum _ is, i3.2, key mean, mul_add, Finset.mul_sum]
      congr 1
      refine Finset.sum_congr rfl fun i _ => ?_
      rw [integral_sub (i1 i).1 (i2 i).1, (i1 i).2, (i2 i).2]
      have : ∏ e, ∫ x, r' i e x ∂ν e = (∏ e, ∫ x, r e x ∂ν e) * mean e0 i :=
        prod_integral_update ν r e0 (fun x => T e0 x i) (mean e0 i) (by rw [hr0]; exact hq1 e0) (by rw [hr0]; exact hm e0 i)
      rw [this]
      ring

/-- The expectation of a function which is affine in each of several independent vectors is its value at the expectations. -/
theorem multiAffine_expectation (q : ∀ e, X e → ℝ) (T : ∀ e, X e → I e → ℝ) (mean : ∀ e, I e → ℝ)
    (hq : ∀ e, Integrable (q e) (ν e)) (hq1 : ∀ e, ∫ x, q e x ∂ν e = 1)
    (hT : ∀ e i, Integrable (fun x => q e x * T e x i) (ν e)) (hm : ∀ e i, ∫ x, q e x * T e x i ∂ν e = mean e i)
    (F : (∀ e, I e → ℝ) → ℝ) (hF : ∀ u e, ∃ a b, ∀ v, F (Function.update u e v) = a ⬝ᵥ v + b) :
    Integrable (fun z : ∀ e, X e => (∏ e, q e (z e)) * F (fun e => T e (z e))) (Measure.pi ν) ∧
      ∫ z, (∏ e, q e (z e)) * F (fun e => T e (z e)) ∂(Measure.pi ν) = F mean := by
  have := multiAffine_step ν q T mean hq1 hT hm F hF Finset.univ q hq (fun _ _ => rfl) mean
  simpa [hq1] using this

end

/-- Jensen's inequality: `exp (E_q (log j - log q))` is not above the integral of `j`. -/
theorem exp_expectation_le {Ω : Type*} [MeasurableSpace Ω] (μ : Measure Ω) (lj lq : Ω → ℝ) (hj : AEMeasurable lj μ)
    (hq : Integrable (fun z => Real.exp (lq z)) μ) (hq1 : ∫ z, Real.exp (lq z) ∂μ = 1)
    (hi : Integrable (fun z => Real.exp (lq z) * (lj z - lq z)) μ) :
    ENNReal.ofReal (Real.exp (∫ z, Real.exp (lq z) * (lj z - lq z) ∂μ)) ≤ ∫⁻ z, ENNReal.ofReal (Real.exp (lj z)) ∂μ := by
  by_cases hfin : ∫⁻ z, ENNReal.ofReal (Real.exp (lj z)) ∂μ = ⊤
  · rw [hfin]; exact le_top
  have hji : Integrable (fun z => Real.exp (lj z)) μ := by
    refine ⟨(Real.measurable_exp.comp_aemeasurable hj).aestronglyMeasurable, ?_⟩
    rw [hasFiniteIntegral_iff_ofReal (Filter.Eventually.of_forall fun z => (Real.exp_pos _).le)]
    exact lt_top_iff_ne_top.2 hfin
  rw [← ofReal_integral_eq_lintegral_ofReal hji (Filter.Eventually.of_forall fun z => (Real.exp_pos _).le)]
  refine ENNReal.ofReal_le_ofReal ?_
  set L := ∫ z, Real.exp (lq z) * (lj z - lq z) ∂μ with hL
  have hpt : ∀ z, Real.exp (lq z) * (lj z - lq z) ≤ Real.exp (lq z) * (L - 1) + Real.exp (lj z) * Real.exp (-L) := by
    intro z
    have h1 := Real.add_one_le_exp (lj z - lq z - L)
    have h2 : Real.exp (lj z) * Real.exp (-L) = Real.exp (lq z) * Real.exp (lj z - lq z - L) := by
      rw [← Real.exp_add, ← Real.exp_add]; ring_nf
    rw [h2, ← mul_add]
    exact mul_le_mul_of_nonneg_left (by linarith) (Real.exp_pos _).le
  have hint := integral_mono hi ((hq.mul_const (L - 1)).add (hji.mul_const (Real.exp (-L)))) hpt
  simp only [Pi.add_apply] at hint
  rw [integral_add (hq.mul_const _) (hji.mul_const _), integral_mul_const, integral_mul_const, hq1, one_mul, ← hL] at hint
  have h3 : 1 ≤ (∫ z, Real.exp (lj z) ∂μ) * Real.exp (-L) := by linarith
  have h4 := mul_le_mul_of_nonneg_right h3 (Real.exp_pos L).le
  rwa [one_mul, mul_assoc, ← Real.exp_add, neg_add_cancel, Real.exp_zero, mul_one] at h4

end Verif
