import Verif.Props.LogPdf
import Verif.Lemmas.Deriv
import Mathlib.Analysis.SpecialFunctions.Log.Deriv
import Mathlib.Analysis.SpecialFunctions.ExpDeriv
import Mathlib.Analysis.SpecialFunctions.Exponential
import Mathlib.Analysis.Calculus.Deriv.Add
import Mathlib.Analysis.Calculus.Deriv.Mul
import Mathlib.Data.Nat.Choose.Multinomial

/-!
# C22: the moments are minus the gradient of `g`, and the exact expectations

`IsMinusGradient g phi u`: in every direction the derivative of `g` is `-⟨u, direction⟩`.
-/

namespace Verif.Spec

/-- `u` is minus the gradient of `g` at `phi`, in every direction. -/
def IsMinusGradient {ι : Type*} [Fintype ι] (g : (ι → ℝ) → ℝ) (phi u : ι → ℝ) : Prop :=
  ∀ d : ι → ℝ, HasDerivAt (fun t : ℝ => g (phi + t • d)) (-(u ⬝ᵥ d)) 0

end Verif.Spec

namespace Verif
open Spec

theorem hasDerivAt_gammaln (x : ℝ) (hx : 0 < x) : HasDerivAt gammaln (digamma x) x := by
  have h : DifferentiableAt ℝ Real.Gamma x :=
    Real.differentiableAt_Gamma fun m e => by
      have : (0 : ℝ) ≤ m := Nat.cast_nonneg m
      linarith
  exact (h.log (Real.Gamma_pos_of_pos hx).ne').hasDerivAt

theorem hasDerivAt_line (a b : ℝ) : HasDerivAt (fun t : ℝ => a + t * b) b 0 := by
  simpa using ((hasDerivAt_id (0 : ℝ)).mul_const b).const_add a

/-- The composition of a function with a line. -/
theorem hasDerivAt_along {f : ℝ → ℝ} {f' a : ℝ} (b : ℝ) (h : HasDerivAt f f' a) :
    HasDerivAt (fun t : ℝ => f (a + t * b)) (f' * b) 0 := by
  have h' : HasDerivAt f f' (a + (0 : ℝ) * b) := by simpa using h
  exact h'.comp (0 : ℝ) (hasDerivAt_line a b)

theorem hasDerivAt_sum' {ι : Type*} [Fintype ι] {F : ι → ℝ → ℝ} {F' : ι → ℝ} {x : ℝ}
    (h : ∀ i, HasDerivAt (F i) (F' i) x) : HasDerivAt (fun t => ∑ i, F i t) (∑ i, F' i) x := by
  have := HasDerivAt.sum (u := Finset.univ) fun i _ => h i
  exact hasDerivAt_of_eq this (fun t => by simp) rfl

theorem C22_gamma_gradient (phi : Fin 2 → ℝ) (h0 : phi 0 < 0) (h1 : 0 < phi 1) :
    IsMinusGradient gammaCgf phi (gammaMoments phi) := by
  intro d
  have hl : HasDerivAt (fun t : ℝ => Real.log (-(phi 0 + t * d 0))) (-(d 0) / (-phi 0)) 0 := by
    have a : HasDerivAt (fun t : ℝ => -(phi 0 + t * d 0)) (-(d 0)) 0 := (hasDerivAt_line _ _).neg
    have b := a.log (by simp only [zero_mul, add_zero]; linarith)
    simpa using b
  have hg := hasDerivAt_along (d 1) (hasDerivAt_gammaln (phi 1) h1)
  have h := ((hasDerivAt_line (phi 1) (d 1)).mul hl).sub hg
  have hne : phi 0 ≠ 0 := h0.ne
  refine hasDerivAt_of_eq h (fun t => rfl) ?_
  simp only [dotProduct, Fin.sum_univ_two, gammaMoments, Matrix.cons_val_zero, Matrix.cons_val_one, zero_mul, add_zero]
  field_simp
  ring

theorem C22_poisson_gradient (phi : Fin 1 → ℝ) : IsMinusGradient poissonCgf phi (poissonMoments phi) := by
  intro d
  have h := (hasDerivAt_along (d 0) (Real.hasDerivAt_exp (phi 0))).neg
  refine hasDerivAt_of_eq h (fun t => rfl) ?_
  simp [dotProduct, poissonMoments]

theorem C22_binomial_gradient (N : ℕ) (phi : Fin 1 → ℝ) :
    IsMinusGradient (binomialCgf N) phi (binomialMoments N phi) := by
  intro d
  have h := (((hasDerivAt_along (d 0) (Real.hasDerivAt_exp (phi 0))).const_add 1).log (by positivity)).const_mul (-(N : ℝ))
  refine hasDerivAt_of_eq h (fun t => rfl) ?_
  simp only [dotProduct, Fin.sum_univ_one, binomialMoments, Matrix.cons_val_zero, zero_mul, add_zero]
  rw [Real.exp_neg]
  have := Real.exp_pos (phi 0)
  field_simp
  ring

section
variable {ι : Type*} [Fintype ι]

theorem C22_dirichlet_gradient [Nonempty ι] (phi : ι → ℝ) (h : ∀ i, 0 < phi i) :
    IsMinusGradient dirichletCgf phi (dirichletMoments phi) := by
  intro d
  have hs : 0 < ∑ i, phi i := Finset.sum_pos (fun i _ => h i) Finset.univ_nonempty
  have a := hasDerivAt_along (∑ i, d i) (hasDerivAt_gammaln _ hs)
  have b := hasDerivAt_sum' fun i => hasDerivAt_along (d i) (hasDerivAt_gammaln (phi i) (h i))
  refine hasDerivAt_of_eq (a.sub b) (fun t => ?_) ?_
  · simp [dirichletCgf, Finset.sum_add_distrib, Finset.mul_sum]
  · simp only [dotProduct, dirichletMoments, sub_mul, Finset.sum_sub_distrib, Finset.mul_sum]
    ring

theorem sum_exp_pos [Nonempty ι] (phi : ι → ℝ) : 0 < ∑ j, Real.exp (phi j) :=
  Finset.sum_pos (fun i _ => Real.exp_pos _) Finset.univ_nonempty

theorem expNormalized_eq [Nonempty ι] (phi : ι → ℝ) (i : ι) :
    expNormalized phi i = Real.exp (phi i) / ∑ j, Real.exp (phi j) := by
  have hs := sum_exp_pos phi
  have e : ∀ j, Real.exp (phi j - Real.log (∑ j, Real.exp (phi j))) = Real.exp (phi j) / ∑ j, Real.exp (phi j) := by
    intro j
    rw [Real.exp_sub, Real.exp_log hs]
  simp only [expNormalized, e]
  rw [← Finset.sum_div, div_self hs.ne', div_one]

theorem C22_multinomial_gradient [Nonempty ι] (N : ℕ) (phi : ι → ℝ) :
    IsMinusGradient (multinomialCgf N) phi (multinomialMoments N phi) := by
  intro d
  have hs := sum_exp_pos phi
  have a := hasDerivAt_sum' fun i => hasDerivAt_along (d i) (Real.hasDerivAt_exp (phi i))
  have b := ((a.log (by simpa using hs.ne')).const_mul (N : ℝ)).neg
  refine hasDerivAt_of_eq b (fun t => rfl) ?_
  simp only [dotProduct, multinomialMoments, expNormalized_eq, zero_mul, add_zero]
  rw [Finset.sum_div, Finset.mul_sum]
  congr 1
  apply Finset.sum_congr rfl
  intro i _
  ring

/-! ### Exact expectations -/

/-- If `exp(-g)` is the normaliser of a finite family for all parameters, minus the gradient of `g` is the
expectation of the sufficient statistics. -/
theorem finite_expectation {κ : Type*} (S : Finset κ) (f : κ → ℝ) (T : κ → ι → ℝ) (g : (ι → ℝ) → ℝ) (phi u : ι → ℝ)
    (hZ : ∀ phi, ∑ x ∈ S, Real.exp (phi ⬝ᵥ T x + f x) = Real.exp (-g phi)) (hg : IsMinusGradient g phi u)
    [DecidableEq ι] (i : ι) : ∑ x ∈ S, T x i * Real.exp (phi ⬝ᵥ T x + g phi + f x) = u i := by
  have a : HasDerivAt (fun t : ℝ => ∑ x ∈ S, Real.exp ((phi + t • (Pi.single i 1 : ι → ℝ)) ⬝ᵥ T x + f x))
      (∑ x ∈ S, Real.exp (phi ⬝ᵥ T x + f x) * T x i) 0 := by
    have h : ∀ x ∈ S, HasDerivAt (fun t : ℝ => Real.exp ((phi + t • (Pi.single i 1 : ι → ℝ)) ⬝ᵥ T x + f x))
        (Real.exp (phi ⬝ᵥ T x + f x) * T x i) 0 := by
      intro x _
      have := hasDerivAt_along (T x i) (Real.hasDerivAt_exp (phi ⬝ᵥ T x + f x))
      refine hasDerivAt_of_eq this (fun t => ?_) rfl
      congr 1
      rw [add_dotProduct, smul_dotProduct, single_dotProduct, smul_eq_mul]
      ring
    exact hasDerivAt_of_eq (HasDerivAt.sum h) (fun t => by simp) rfl
  have b := (hg (Pi.single i 1)).neg.exp
  rw [funext fun t : ℝ => hZ (phi + t • (Pi.single i 1 : ι → ℝ))] at a
  have e := a.unique b
  simp only [dotProduct_single, mul_one, zero_smul, add_zero, neg_neg] at e
  have c : ∀ x, T x i * Real.exp (phi ⬝ᵥ T x + g phi + f x) = Real.exp (phi ⬝ᵥ T x + f x) * T x i * Real.exp (g phi) := by
    intro x
    rw [show phi ⬝ᵥ T x + g phi + f x = (phi ⬝ᵥ T x + f x) + g phi by ring, Real.exp_add]
    ring
  rw [Finset.sum_congr rfl fun x _ => c x, ← Finset.sum_mul, e, mul_right_comm, ← Real.exp_add]
  simp

/-- Multinomial: `exp(-g)` is the exact normaliser. -/
theorem C22_multinomial_normaliser [Nonempty ι] [DecidableEq ι] (N : ℕ) (phi : ι → ℝ) :
    ∑ x ∈ Finset.piAntidiag (Finset.univ : Finset ι) N, Real.exp (phi ⬝ᵥ multinomialFixed x + multinomialF N x)
      = Real.exp (-multinomialCgf N phi) := by
  have hs := sum_exp_pos phi
  have r : Real.exp (-multinomialCgf N phi) = (∑ j, Real.exp (phi j)) ^ N := by
    rw [multinomialCgf, neg_neg, ← Real.log_pow, Real.exp_log (by positivity)]
  rw [r, Finset.sum_pow_eq_sum_piAntidiag]
  apply Finset.sum_congr rfl
  intro x hx
  have hN : ∑ i, x i = N := (Finset.mem_piAntidiag.1 hx).1
  have hm : (Nat.multinomial Finset.univ x : ℝ) * ∏ i, ((x i).factorial : ℝ) = N.factorial := by
    have := Nat.multinomial_spec Finset.univ x
    rw [hN] at this
    rw [mul_comm]
    exact_mod_cast this
  have hp : ∏ i, ((x i).factorial : ℝ) ≠ 0 := Finset.prod_ne_zero_iff.2 fun i _ => by positivity
  have hf : Real.exp (multinomialF N x) = Nat.multinomial Finset.univ x := by
    simp only [multinomialF, gammaln_nat]
    rw [← Real.log_prod fun i _ => by positivity, Real.exp_sub, Real.exp_log (by positivity), Real.exp_log (by positivity),
      ← hm]
    field_simp
  rw [Real.exp_add, hf, mul_comm]
  congr 1
  rw [dotProduct, Real.exp_sum]
  apply Finset.prod_congr rfl
  intro i _
  rw [multinomialFixed, mul_comm, Real.exp_nat_mul]

/-- Multinomial and categorical: the moments are the expected counts under the density that `logpdf` evaluates. -/
theorem C22_multinomial_expectation [Nonempty ι] [DecidableEq ι] (N : ℕ) (phi : ι → ℝ) (i : ι) :
    ∑ x ∈ Finset.piAntidiag (Finset.univ : Finset ι) N,
      (x i : ℝ) * Real.exp (logpdf (multinomialFixed x) phi (multinomialCgf N phi) (multinomialF N x))
      = multinomialMoments N phi i := by
  simp only [logpdf_eq]
  exact finite_expectation _ (multinomialF N) multinomialFixed (multinomialCgf N) phi _
    (C22_multinomial_normaliser N) (C22_multinomial_gradient N phi) i

end

/-- Binomial: `exp(-g)` is the exact normaliser. -/
theorem C22_binomial_normaliser (N : ℕ) (phi : Fin 1 → ℝ) :
    ∑ x ∈ Finset.range (N + 1), Real.exp (phi ⬝ᵥ binomialFixed x + binomialF N x) = Real.exp (-binomialCgf N phi) := by
  have r : Real.exp (-binomialCgf N phi) = (Real.exp (phi 0) + 1) ^ N := by
    rw [binomialCgf, neg_mul, neg_neg, ← Real.log_pow, Real.exp_log (by positivity), add_comm]
  rw [r, add_pow]
  apply Finset.sum_congr rfl
  intro x hx
  have hx' : x ≤ N := by
    have := Finset.mem_range.1 hx
    omega
  have e : ((N : ℝ) - x) = ((N - x : ℕ) : ℝ) := by push_cast [hx']; ring
  have hf : Real.exp (binomialF N x) = N.choose x := by
    rw [binomialF, e, gammaln_nat, gammaln_nat, gammaln_nat, Real.exp_sub, Real.exp_sub, Real.exp_log (by positivity),
      Real.exp_log (by positivity), Real.exp_log (by positivity), Nat.cast_choose ℝ hx']
    field_simp
  rw [Real.exp_add, hf, one_pow, mul_one]
  congr 1
  simp only [dotProduct, Fin.sum_univ_one, binomialFixed, Matrix.cons_val_zero]
  rw [mul_comm, Real.exp_nat_mul]

/-- Binomial and Bernoulli: the moment is the expected number of successes. -/
theorem C22_binomial_expectation (N : ℕ) (phi : Fin 1 → ℝ) :
    ∑ x ∈ Finset.range (N + 1),
      (x : ℝ) * Real.exp (logpdf (binomialFixed x) phi (binomialCgf N phi) (binomialF N x)) = binomialMoments N phi 0 := by
  simp only [logpdf_eq]
  exact finite_expectation _ (binomialF N) binomialFixed (binomialCgf N) phi _
    (C22_binomial_normaliser N) (C22_binomial_gradient N phi) 0

theorem poisson_term (phi : Fin 1 → ℝ) (g : ℝ) (x : ℕ) :
    Real.exp (phi ⬝ᵥ poissonFixed x + g + poissonF x) = Real.exp g * (Real.exp (phi 0) ^ x / x.factorial) := by
  rw [poissonF, gammaln_nat, Real.exp_add, Real.exp_add, Real.exp_neg, Real.exp_log (by positivity)]
  simp only [dotProduct, Fin.sum_univ_one, poissonFixed, Matrix.cons_val_zero]
  rw [mul_comm (phi 0), Real.exp_nat_mul]
  ring

theorem hasSum_exp (x : ℝ) : HasSum (fun n : ℕ => x ^ n / n.factorial) (Real.exp x) := by
  rw [Real.exp_eq_exp_ℝ]
  exact NormedSpace.expSeries_div_hasSum_exp x

/-- Poisson: the probabilities sum to one. -/
theorem C22_poisson_normaliser (phi : Fin 1 → ℝ) :
    HasSum (fun x : ℕ => Real.exp (logpdf (poissonFixed x) phi (poissonCgf phi) (poissonF x))) 1 := by
  simp only [logpdf_eq, poisson_term]
  have h := (hasSum_exp (Real.exp (phi 0))).mul_left (Real.exp (poissonCgf phi))
  rwa [poissonCgf, ← Real.exp_add, neg_add_cancel, Real.exp_zero] at h

/-- Poisson: the moment is the expected count. -/
theorem C22_poisson_expectation (phi : Fin 1 → ℝ) :
    HasSum (fun x : ℕ => (x : ℝ) * Real.exp (logpdf (poissonFixed x) phi (poissonCgf phi) (poissonF x)))
      (poissonMoments phi 0) := by
  simp only [logpdf_eq, poisson_term]
  rw [← hasSum_nat_add_iff' 1]
  have h := (hasSum_exp (Real.exp (phi 0))).mul_left (Real.exp (poissonCgf phi) * Real.exp (phi 0))
  have e : Real.exp (poissonCgf phi) * Real.exp (phi 0) * Real.exp (Real.exp (phi 0)) = poissonMoments phi 0 := by
    rw [poissonCgf, mul_right_comm, ← Real.exp_add, neg_add_cancel, Real.exp_zero, one_mul]
    rfl
  rw [e] at h
  refine (congrArg₂ HasSum (funext fun n => ?_) ?_).mpr h
  · rw [Nat.factorial_succ]
    push_cast
    field_simp
    ring
  · simp

/-- The hypotheses can be met. -/
example : IsMinusGradient gammaCgf ![-2, 3] (gammaMoments ![-2, 3]) ∧ gammaMoments ![-2, 3] 0 = 3 / 2 :=
  ⟨C22_gamma_gradient _ (by norm_num) (by norm_num), by norm_num [gammaMoments]⟩

example : IsMinusGradient dirichletCgf ![1, 2, 3] (dirichletMoments ![1, 2, 3]) :=
  C22_dirichlet_gradient _ (by intro i; fin_cases i <;> norm_num)

end Verif
