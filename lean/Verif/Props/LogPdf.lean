import Verif.Props.Conjugacy
import Mathlib.Tactic.Positivity
import Mathlib.Tactic.FieldSimp
import Mathlib.Data.Nat.Choose.Basic

/-!
# C21 for the scalar, discrete and Dirichlet families

The parents are constants, so their moments are the fixed moments.
-/

namespace Verif
open Spec

theorem gammaln_nat (n : ℕ) : gammaln (n + 1) = Real.log n.factorial := by
  rw [gammaln, Real.Gamma_nat_eq_factorial]

theorem C21_poisson (l : ℝ) (hl : 0 < l) (x : ℕ) :
    logpdf (poissonFixed x) (poissonPhi (gammaFixed l)) (poissonCgfP (gammaFixed l)) (poissonF x)
      = Real.log (poissonPmf l x) := by
  have hf : (x.factorial : ℝ) ≠ 0 := by positivity
  rw [poissonPmf, Real.log_div (by positivity) hf, Real.log_mul (by positivity) (by positivity), Real.log_pow,
    Real.log_exp]
  simp only [logpdf_eq, dotProduct, Fin.sum_univ_one, poissonFixed, poissonPhi, poissonCgfP, poissonF, gammaFixed,
    gammaln_nat, Matrix.cons_val_zero, Matrix.cons_val_one]
  ring

theorem C21_gamma (a b x : ℝ) (ha : 0 < a) (hb : 0 < b) (hx : 0 < x) :
    logpdf (gammaFixed x) (gammaPhi (gammaPriorFixed a) (gammaFixed b)) (gammaCgfP (gammaPriorFixed a) (gammaFixed b))
      (gammaF x) = Real.log (gammaPdf a b x) := by
  have hG := Real.Gamma_pos_of_pos ha
  rw [gammaPdf, Real.log_mul (by positivity) (by positivity), Real.log_mul (by positivity) (by positivity),
    Real.log_div (by positivity) (by positivity), Real.log_rpow hb, Real.log_rpow hx, Real.log_exp]
  simp only [logpdf_eq, dotProduct, Fin.sum_univ_two, gammaFixed, gammaPhi, gammaCgfP, gammaF, gammaPriorFixed,
    gammaln, Matrix.cons_val_zero, Matrix.cons_val_one]
  ring

section
variable {ι : Type*} [Fintype ι]

theorem dirichletFixed_of_sum (p : ι → ℝ) (h : ∑ i, p i = 1) (i : ι) : dirichletFixed p i = Real.log (p i) := by
  rw [dirichletFixed, h, div_one]

theorem C21_dirichlet [Nonempty ι] (α p : ι → ℝ) (hα : ∀ i, 0 < α i) (hp : ∀ i, 0 < p i) (h1 : ∑ i, p i = 1) :
    logpdf (dirichletFixed p) (dirichletPhi (concentrationFixed α)) (dirichletCgfP (concentrationFixed α))
      (dirichletF p) = Real.log (dirichletPdf α p) := by
  have hs : 0 < ∑ i, α i := Finset.sum_pos (fun i _ => hα i) Finset.univ_nonempty
  have h2 : ∏ i, Real.Gamma (α i) ≠ 0 := Finset.prod_ne_zero_iff.2 fun i _ => (Real.Gamma_pos_of_pos (hα i)).ne'
  have h3 : ∏ i, p i ^ (α i - 1) ≠ 0 := Finset.prod_ne_zero_iff.2 fun i _ => (Real.rpow_pos_of_pos (hp i) _).ne'
  have h4 := (Real.Gamma_pos_of_pos hs).ne'
  rw [dirichletPdf, Real.log_mul (div_ne_zero h4 h2) h3, Real.log_div h4 h2,
    Real.log_prod fun i _ => (Real.Gamma_pos_of_pos (hα i)).ne',
    Real.log_prod fun i _ => (Real.rpow_pos_of_pos (hp i) _).ne']
  simp only [logpdf_eq, dotProduct, dirichletF, dirichletFixed_of_sum p h1, dirichletPhi, dirichletCgfP,
    concentrationFixed, gammaln, Real.log_rpow (hp _), sub_mul, one_mul, Finset.sum_sub_distrib]
  ring

/-- The observed vector need not be normalised: the density at the normalised vector is computed. -/
theorem C21_dirichlet_unnormalised [Nonempty ι] (α p : ι → ℝ) (hα : ∀ i, 0 < α i) (hp : ∀ i, 0 < p i) :
    logpdf (dirichletFixed p) (dirichletPhi (concentrationFixed α)) (dirichletCgfP (concentrationFixed α))
      (dirichletF p) = Real.log (dirichletPdf α fun i => p i / ∑ j, p j) := by
  have hs : 0 < ∑ i, p i := Finset.sum_pos (fun i _ => hp i) Finset.univ_nonempty
  have h1 : ∑ i, p i / ∑ j, p j = 1 := by rw [← Finset.sum_div, div_self hs.ne']
  have hf : dirichletFixed p = dirichletFixed fun i => p i / ∑ j, p j := by
    funext i
    rw [dirichletFixed_of_sum _ h1]
    rfl
  have hF : dirichletF p = dirichletF fun i => p i / ∑ j, p j := by rw [dirichletF, dirichletF, hf]
  rw [hF, hf]
  exact C21_dirichlet α _ hα (fun i => div_pos (hp i) hs) h1

theorem C21_multinomial (p : ι → ℝ) (hp : ∀ i, 0 < p i) (h1 : ∑ i, p i = 1) (x : ι → ℕ) :
    logpdf (multinomialFixed x) (multinomialPhi (dirichletFixed p)) (multinomialCgfP (dirichletFixed p))
      (multinomialF (∑ i, x i) x) = Real.log (multinomialPmf (∑ i, x i) p x) := by
  have h2 : ∏ i, ((x i).factorial : ℝ) ≠ 0 := Finset.prod_ne_zero_iff.2 fun i _ => by positivity
  have h3 : ∏ i, p i ^ x i ≠ 0 := Finset.prod_ne_zero_iff.2 fun i _ => (pow_pos (hp i) _).ne'
  have h4 : ((∑ i, x i).factorial : ℝ) ≠ 0 := by positivity
  rw [multinomialPmf, Real.log_mul (div_ne_zero h4 h2) h3, Real.log_div h4 h2,
    Real.log_prod fun i _ => by positivity, Real.log_prod fun i _ => (pow_pos (hp i) _).ne']
  simp only [logpdf_eq, dotProduct, multinomialFixed, multinomialPhi, multinomialCgfP, multinomialF, gammaln_nat,
    dirichletFixed_of_sum p h1, Real.log_pow]
  rw [Finset.sum_congr rfl fun i _ => mul_comm (Real.log (p i)) _]
  ring

end

/-- Categorical: the multinomial of one trial gives the logarithm of the probability of the category. -/
theorem C21_categorical {ι : Type*} [Fintype ι] [DecidableEq ι] (p : ι → ℝ) (hp : ∀ i, 0 < p i) (h1 : ∑ i, p i = 1)
    (k : ι) :
    logpdf (multinomialFixed (Pi.single k 1)) (multinomialPhi (dirichletFixed p)) (multinomialCgfP (dirichletFixed p))
      (multinomialF 1 (Pi.single k 1)) = Real.log (p k) := by
  have hs : ∑ i, (Pi.single k 1 : ι → ℕ) i = 1 := by simp
  have h := C21_multinomial p hp h1 (Pi.single k 1)
  rw [hs] at h
  rw [h]
  congr 1
  have a : ∏ i, (((Pi.single k 1 : ι → ℕ) i).factorial : ℝ) = 1 := by
    apply Finset.prod_eq_one
    intro i _
    by_cases e : i = k
    · subst e; simp
    · simp [Pi.single_eq_of_ne e]
  have b : ∏ i, p i ^ (Pi.single k 1 : ι → ℕ) i = p k := by
    rw [Finset.prod_eq_single k]
    · simp
    · intro i _ e
      simp [Pi.single_eq_of_ne e]
    · simp
  rw [multinomialPmf, a, b]
  simp

theorem betaVector_sum (p : ℝ) : ∑ i, betaVector p i = 1 := by
  simp only [betaVector, Fin.sum_univ_two, Matrix.cons_val_zero, Matrix.cons_val_one]
  ring

/-- Binomial; the probability enters as the moments of a fixed beta variable. -/
theorem C21_binomial (N x : ℕ) (hx : x ≤ N) (p : ℝ) (h0 : 0 < p) (h1 : p < 1) :
    logpdf (binomialFixed x) (binomialPhi (dirichletFixed (betaVector p)))
      (binomialCgfP N (dirichletFixed (betaVector p))) (binomialF N x) = Real.log (binomialPmf N p x) := by
  have hq : 0 < 1 - p := by linarith
  have hc : (0 : ℝ) < N.choose x := by exact_mod_cast Nat.choose_pos hx
  have e : ((N : ℝ) - x) = ((N - x : ℕ) : ℝ) := by push_cast [hx]; ring
  rw [binomialPmf, Real.log_mul (by positivity) (by positivity), Real.log_mul hc.ne' (by positivity), Real.log_pow,
    Real.log_pow, Nat.cast_choose ℝ hx, Real.log_div (by positivity) (by positivity),
    Real.log_mul (by positivity) (by positivity)]
  simp only [logpdf_eq, dotProduct, Fin.sum_univ_one, binomialFixed, binomialPhi, binomialCgfP, binomialF,
    dirichletFixed_of_sum _ (betaVector_sum p)]
  rw [e, gammaln_nat, gammaln_nat, gammaln_nat, ← e]
  simp only [betaVector, Matrix.cons_val_zero, Matrix.cons_val_one]
  have e1 : p * 1 + 0 = p := by ring
  have e2 : p * -1 + 1 = 1 - p := by ring
  rw [e1, e2]
  ring

/-- Beta -/
theorem C21_beta (a b p : ℝ) (ha : 0 < a) (hb : 0 < b) (h0 : 0 < p) (h1 : p < 1) :
    logpdf (dirichletFixed (betaVector p)) (dirichletPhi (concentrationFixed ![a, b]))
      (dirichletCgfP (concentrationFixed ![a, b])) (dirichletF (betaVector p)) = Real.log (betaPdf a b p) := by
  have e1 : p * 1 + 0 = p := by ring
  have e2 : p * -1 + 1 = 1 - p := by ring
  have hp : ∀ i, 0 < betaVector p i := by
    intro i
    fin_cases i
    · show 0 < p * 1 + 0
      linarith
    · show 0 < p * -1 + 1
      linarith
  have hα : ∀ i, 0 < (![a, b] : Fin 2 → ℝ) i := by
    intro i
    fin_cases i
    · exact ha
    · exact hb
  rw [C21_dirichlet _ _ hα hp (betaVector_sum p)]
  congr 1
  simp only [dirichletPdf, betaPdf, betaVector, Fin.sum_univ_two, Fin.prod_univ_two, Matrix.cons_val_zero,
    Matrix.cons_val_one, e1, e2]
  ring

/-- The hypotheses can be met: one success out of two with probability one third has probability `4/9`. -/
example : logpdf (dirichletFixed ![2, 6]) (dirichletPhi (concentrationFixed ![1, 2]))
    (dirichletCgfP (concentrationFixed ![1, 2])) (dirichletF ![2, 6]) = Real.log (3 / 2) := by
  rw [C21_dirichlet_unnormalised ![1, 2] ![2, 6] (by intro i; fin_cases i <;> norm_num)
    (by intro i; fin_cases i <;> norm_num)]
  congr 1
  have h2 : Real.Gamma 2 = 1 := by simpa using Real.Gamma_nat_eq_factorial 1
  have h3 : Real.Gamma 3 = 2 := by simpa using Real.Gamma_nat_eq_factorial 2
  norm_num [dirichletPdf, Fin.sum_univ_two, Fin.prod_univ_two, h2, h3]

example : logpdf (binomialFixed 1) (binomialPhi (dirichletFixed (betaVector (1/3))))
    (binomialCgfP 2 (dirichletFixed (betaVector (1/3)))) (binomialF 2 1) = Real.log (4/9) := by
  rw [C21_binomial 2 1 (by norm_num) _ (by norm_num) (by norm_num)]
  congr 1
  norm_num [binomialPmf]

example : logpdf (gammaFixed 1) (gammaPhi (gammaPriorFixed 2) (gammaFixed 3))
    (gammaCgfP (gammaPriorFixed 2) (gammaFixed 3)) (gammaF 1) = Real.log (9 * Real.exp (-3)) := by
  rw [C21_gamma 2 3 1 (by norm_num) (by norm_num) (by norm_num)]
  congr 1
  have : Real.Gamma 2 = 1 := by simpa using Real.Gamma_nat_eq_factorial 1
  norm_num [gammaPdf, this]

end Verif
