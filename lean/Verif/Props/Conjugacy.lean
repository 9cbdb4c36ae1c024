import Verif.Model.Dist
import Verif.Spec.Density
import Mathlib.Tactic.Ring
import Mathlib.Tactic.NormNum
import Mathlib.Data.Fintype.Option
import Mathlib.Algebra.BigOperators.Option

/-!
# C20 for the scalar, discrete and Dirichlet families

`E v` is the expected log-density as a function of the moments `v` of one parent; the message has to consist of its
coefficients.  `isCoefficient_unique` shows that this determines the message.
-/

namespace Verif
open Spec

theorem logpdf_eq {ι : Type*} [Fintype ι] (u phi : ι → ℝ) (g f : ℝ) : logpdf u phi g f = phi ⬝ᵥ u + g + f := by
  unfold logpdf dotProduct
  have : ∀ i, (if u i ≠ 0 then phi i else 0) * u i = phi i * u i := by
    intro i
    by_cases h : u i = 0 <;> simp [h]
  rw [Finset.sum_congr rfl fun i _ => this i]
  ring

/-- Only one vector of coefficients is possible. -/
theorem isCoefficient_unique {ι : Type*} [Fintype ι] [DecidableEq ι] {E : (ι → ℝ) → ℝ} {m m' : ι → ℝ}
    (h : IsCoefficient E m) (h' : IsCoefficient E m') : m = m' := by
  obtain ⟨r, hr⟩ := h
  obtain ⟨r', hr'⟩ := h'
  have h0 : r = r' := by
    have a := hr 0
    have b := hr' 0
    simp only [dotProduct_zero, zero_add] at a b
    rw [← a, ← b]
  funext i
  have a := hr (Pi.single i 1)
  have b := hr' (Pi.single i 1)
  rw [a, h0] at b
  simpa using b

/-- Gamma, message to the shape -/
theorem C20_gamma_shape (u ub : Fin 2 → ℝ) (f : ℝ) :
    IsCoefficient (fun ua => logpdf u (gammaPhi ua ub) (gammaCgfP ua ub) f) (gammaMsgA u ub) := by
  refine ⟨-ub 0 * u 0 + f, fun v => ?_⟩
  simp only [logpdf_eq, dotProduct, Fin.sum_univ_two, gammaPhi, gammaCgfP, gammaMsgA, Matrix.cons_val_zero,
    Matrix.cons_val_one]
  ring

/-- Gamma, message to the rate -/
theorem C20_gamma_rate (u ua : Fin 2 → ℝ) (f : ℝ) :
    IsCoefficient (fun ub => logpdf u (gammaPhi ua ub) (gammaCgfP ua ub) f) (gammaMsgB u ua) := by
  refine ⟨ua 0 * u 1 - ua 1 + f, fun v => ?_⟩
  simp only [logpdf_eq, dotProduct, Fin.sum_univ_two, gammaPhi, gammaCgfP, gammaMsgB, Matrix.cons_val_zero,
    Matrix.cons_val_one]
  ring

/-- Poisson, message to the rate -/
theorem C20_poisson (u : Fin 1 → ℝ) (f : ℝ) :
    IsCoefficient (fun ul => logpdf u (poissonPhi ul) (poissonCgfP ul) f) (poissonMsg u) := by
  refine ⟨f, fun v => ?_⟩
  simp only [logpdf_eq, dotProduct, Fin.sum_univ_two, Fin.sum_univ_one, poissonPhi, poissonCgfP, poissonMsg,
    Matrix.cons_val_zero, Matrix.cons_val_one]
  ring

/-- Binomial (Bernoulli for `N = 1`), message to the probability -/
theorem C20_binomial (N : ℕ) (u : Fin 1 → ℝ) (f : ℝ) :
    IsCoefficient (fun up => logpdf u (binomialPhi up) (binomialCgfP N up) f) (binomialMsg N u) := by
  refine ⟨f, fun v => ?_⟩
  simp only [logpdf_eq, dotProduct, Fin.sum_univ_two, Fin.sum_univ_one, binomialPhi, binomialCgfP, binomialMsg,
    Matrix.cons_val_zero, Matrix.cons_val_one]
  ring

/-- Dirichlet (Beta for two categories), message to the concentration -/
theorem C20_dirichlet {ι : Type*} [Fintype ι] (u : ι → ℝ) (f : ℝ) :
    IsCoefficient (fun uα => logpdf u (dirichletPhi uα) (dirichletCgfP uα) f) (dirichletMsg u) := by
  refine ⟨f, fun v => ?_⟩
  simp only [logpdf_eq, dotProduct, Fintype.sum_option, dirichletPhi, dirichletCgfP, dirichletMsg]
  rw [Finset.sum_congr rfl fun i _ => mul_comm (v (some i)) (u i)]
  ring

/-- Multinomial (Categorical for `N = 1`), message to the probabilities -/
theorem C20_multinomial {ι : Type*} [Fintype ι] (u : ι → ℝ) (f : ℝ) :
    IsCoefficient (fun up => logpdf u (multinomialPhi up) (multinomialCgfP up) f) (multinomialMsg u) := by
  refine ⟨f, fun v => ?_⟩
  simp only [logpdf_eq, multinomialPhi, multinomialCgfP, multinomialMsg, dotProduct_comm v u]
  ring

/-- For one Poisson observation `3` the coefficients are `-1` and `3`; `-1` and `2` would be wrong. -/
example : IsCoefficient (fun ul => logpdf (poissonFixed 3) (poissonPhi ul) (poissonCgfP ul) 0) ![-1, 3] ∧
    ¬ IsCoefficient (fun ul => logpdf (poissonFixed 3) (poissonPhi ul) (poissonCgfP ul) 0) ![-1, 2] := by
  have h := C20_poisson (poissonFixed 3) 0
  have e : poissonMsg (poissonFixed 3) = ![-1, 3] := by simp [poissonMsg, poissonFixed]
  rw [e] at h
  refine ⟨h, fun h' => ?_⟩
  have := congrFun (isCoefficient_unique h h') 1
  norm_num at this

end Verif
