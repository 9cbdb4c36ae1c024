import Verif.Model.PointEstimate
import Verif.Lemmas.Digamma
import Verif.Props.Gibbs
import Mathlib.Analysis.Convex.SpecificFunctions.Basic
import Mathlib.Topology.Order.MonotoneConvergence
import Mathlib.Order.FixedPoints

/-!
# C60: the maximum likelihood nodes

The terms of the lower bound that depend on a point estimate with moments `u` are `m ⬝ᵥ u` plus its own contribution,
where `m` is the message from the children.
-/

namespace Verif
open Spec Set Filter Topology

theorem invpsi_spec (x : ℝ) : 0 < invpsi x ∧ digamma (invpsi x) = x :=
  Classical.epsilon_spec (digamma_surj x)

theorem invpsi_pos (x : ℝ) : 0 < invpsi x := (invpsi_spec x).1

theorem digamma_invpsi (x : ℝ) : digamma (invpsi x) = x := (invpsi_spec x).2

theorem digamma_inj {x y : ℝ} (hx : 0 < x) (hy : 0 < y) (h : digamma x = digamma y) : x = y :=
  digamma_strictMonoOn.injOn hx hy h

theorem invpsi_digamma (x : ℝ) (hx : 0 < x) : invpsi (digamma x) = x :=
  digamma_inj (invpsi_pos _) hx (digamma_invpsi _)

theorem invpsi_strictMono : StrictMono invpsi := fun x y h => by
  by_contra hc
  have := digamma_strictMonoOn.monotoneOn (invpsi_pos y) (invpsi_pos x) (not_lt.1 hc)
  rw [digamma_invpsi, digamma_invpsi] at this
  linarith

/-! ### The shape of the gamma distribution -/

/-- The update of `GammaShape` is the only maximiser of the messages and the regularisation. -/
theorem C60_gamma_shape_maximises (r m : Fin 2 → ℝ) (h : r 1 + m 1 < 0) (x : ℝ) (hx : 0 < x)
    (hne : gammaPriorFixed x ≠ gammaShapeUpdate r m) :
    (r + m) ⬝ᵥ gammaPriorFixed x < (r + m) ⬝ᵥ gammaShapeUpdate r m := by
  set y := invpsi (-(r 0 + m 0) / (r 1 + m 1)) with hy
  have e : gammaShapeUpdate r m = gammaPriorFixed y := rfl
  rw [e] at hne ⊢
  have hxy : y ≠ x := fun h => hne (by rw [h])
  have ht := gammaln_tangent_lt y x (invpsi_pos _) hx hxy
  have hd : (r 1 + m 1) * digamma y = -(r 0 + m 0) := by
    rw [hy, digamma_invpsi, mul_div_cancel₀ _ h.ne]
  simp only [dotProduct, Fin.sum_univ_two, gammaPriorFixed, Pi.add_apply, Matrix.cons_val_zero, Matrix.cons_val_one]
  have h1 := mul_lt_mul_of_neg_left ht h
  have h2 : (r 1 + m 1) * (gammaln y + digamma y * (x - y))
      = (r 1 + m 1) * gammaln y - (r 0 + m 0) * (x - y) := by
    rw [mul_add, ← mul_assoc, hd]; ring
  nlinarith

/-- Without regularisation the update does not decrease the bound, whatever value the node had before. -/
theorem C60_gamma_shape_bound_partial (m : Fin 2 → ℝ) (h : m 1 < 0) (x : ℝ) (hx : 0 < x) :
    m ⬝ᵥ gammaPriorFixed x + gammaShapeContribution 0 (gammaPriorFixed x)
      ≤ m ⬝ᵥ gammaShapeUpdate 0 m + gammaShapeContribution 0 (gammaShapeUpdate 0 m) := by
  by_cases he : gammaPriorFixed x = gammaShapeUpdate 0 m
  · rw [he]
  · have := (C60_gamma_shape_maximises 0 m (by simpa using h) x hx he).le
    rw [zero_add] at this
    simpa [gammaShapeContribution] using this

theorem digamma_one_le : digamma 1 < 0 := by
  have h := gammaln_tangent_lt 1 2 one_pos two_pos (by norm_num)
  have e1 : gammaln 1 = 0 := by simp [gammaln]
  have e2 : gammaln 2 = 0 := by simp [gammaln]
  rw [e1, e2] at h
  linarith

/-- **C60 fails with a regularisation** (`m0`, `m1` of the constructor): the update maximises the sum of the messages
and the regularisation, but the regularisation is not in the lower bound, so that it decreases. -/
theorem C60_gamma_shape_regularisation_refuted :
    ∃ (r m : Fin 2 → ℝ) (x : ℝ), 0 < x ∧ r 1 + m 1 < 0 ∧
      m ⬝ᵥ gammaShapeUpdate r m + gammaShapeContribution r (gammaShapeUpdate r m)
        < m ⬝ᵥ gammaPriorFixed x + gammaShapeContribution r (gammaPriorFixed x) := by
  refine ⟨![1, 0], ![digamma 1, -1], 1, one_pos, by simp, ?_⟩
  have e : gammaShapeUpdate ![1, 0] ![digamma 1, -1] = gammaPriorFixed 2 := by
    have h2 : digamma 2 = 1 + digamma 1 := by
      have := digamma_add_one 1 one_pos
      norm_num at this
      linarith
    unfold gammaShapeUpdate
    simp only [Matrix.cons_val_zero, Matrix.cons_val_one, zero_add]
    rw [show -(1 + digamma 1) / -1 = digamma 2 by rw [h2]; ring, invpsi_digamma 2 two_pos]
  rw [e]
  have e1 : gammaln 1 = 0 := by simp [gammaln]
  have e2 : gammaln 2 = 0 := by simp [gammaln]
  simp only [dotProduct, Fin.sum_univ_two, gammaPriorFixed, gammaShapeContribution, Matrix.cons_val_zero,
    Matrix.cons_val_one, e1, e2]
  linarith [digamma_one_le]

/-- The estimate from observed values is the maximum likelihood estimate. -/
theorem C60_gamma_shape_mle {J : Type*} [Fintype J] [Nonempty J] (x b : J → ℝ) (hx : ∀ j, 0 < x j) (hb : ∀ j, 0 < b j) :
    ∃ a, 0 < a ∧ gammaShapeUpdate 0 (∑ j, gammaMsgA (gammaFixed (x j)) (gammaFixed (b j))) = gammaPriorFixed a ∧
      ∀ a', 0 < a' → ∏ j, (b j ^ a' * x j ^ (a' - 1) * Real.exp (-(b j * x j)) / Real.Gamma a')
        ≤ ∏ j, (b j ^ a * x j ^ (a - 1) * Real.exp (-(b j * x j)) / Real.Gamma a) := by
  set m := ∑ j, gammaMsgA (gammaFixed (x j)) (gammaFixed (b j)) with hm
  have h0 : m 0 = ∑ j, (Real.log (x j) + Real.log (b j)) := by simp [hm, Finset.sum_apply, gammaMsgA, gammaFixed]
  have h1 : m 1 = -(Fintype.card J : ℝ) := by simp [hm, Finset.sum_apply, gammaMsgA]
  have hc : (0 : ℝ) < Fintype.card J := by exact_mod_cast Fintype.card_pos
  refine ⟨_, invpsi_pos _, rfl, fun a' ha' => ?_⟩
  set a := invpsi (-((0 : Fin 2 → ℝ) 0 + m 0) / ((0 : Fin 2 → ℝ) 1 + m 1))
  have ha : 0 < a := invpsi_pos _
  have hb' := C60_gamma_shape_bound_partial m (by rw [h1]; linarith) a' ha'
  have e : gammaShapeUpdate 0 m = gammaPriorFixed a := rfl
  rw [e] at hb'
  have key : ∀ c : ℝ, 0 < c → ∏ j, (b j ^ c * x j ^ (c - 1) * Real.exp (-(b j * x j)) / Real.Gamma c)
      = Real.exp (m ⬝ᵥ gammaPriorFixed c) * Real.exp (∑ j, (-Real.log (x j) - b j * x j)) := by
    intro c hc
    rw [← Real.exp_add]
    have : m ⬝ᵥ gammaPriorFixed c + ∑ j, (-Real.log (x j) - b j * x j)
        = ∑ j, (c * (Real.log (x j) + Real.log (b j)) - gammaln c + (-Real.log (x j) - b j * x j)) := by
      rw [Finset.sum_add_distrib, Finset.sum_sub_distrib (fun j => c * (Real.log (x j) + Real.log (b j))), ← Finset.mul_sum]
      simp only [dotProduct, Fin.sum_univ_two, gammaPriorFixed, Matrix.cons_val_zero, Matrix.cons_val_one, h0, h1,
        Finset.sum_const, Finset.card_univ, nsmul_eq_mul]
      ring
    rw [this, Real.exp_sum]
    refine Finset.prod_congr rfl fun j _ => ?_
    rw [Real.rpow_def_of_pos (hb j), Real.rpow_def_of_pos (hx j), ← Real.exp_add, ← Real.exp_add]
    have : Real.Gamma c = Real.exp (gammaln c) := (Real.exp_log (Real.Gamma_pos_of_pos hc)).symm
    rw [this, ← Real.exp_sub]
    congr 1
    ring
  rw [key a' ha', key a ha]
  refine mul_le_mul_of_nonneg_right (Real.exp_le_exp.2 ?_) (Real.exp_pos _).le
  simpa [gammaShapeContribution] using hb'

/-- non-vacuity: two observed values with the rate one -/
example : ∃ a, 0 < a ∧ gammaShapeUpdate 0 (∑ j : Fin 2, gammaMsgA (gammaFixed (![1, 3] j)) (gammaFixed 1)) = gammaPriorFixed a :=
  let ⟨a, h, e, _⟩ := C60_gamma_shape_mle (J := Fin 2) ![1, 3] (fun _ => 1) (by intro j; fin_cases j <;> norm_num)
    (fun _ => one_pos)
  ⟨a, h, e⟩

/-! ### The concentration of the Dirichlet distribution -/

section
variable {ι : Type*} [Fintype ι]

/-- the part of the lower bound that depends on the node, when its value is `a` -/
noncomputable def concentrationBound (r m : Option ι → ℝ) (a : ι → ℝ) : ℝ :=
  m ⬝ᵥ concentrationFixed a + concentrationContribution r (concentrationFixed a)

/-- It is the logarithm of a Dirichlet likelihood, with sufficient statistic and number of samples the sums of those
of the messages and of the regularisation. -/
theorem C60_concentration_bound (r m : Option ι → ℝ) (a : ι → ℝ) :
    concentrationBound r m a
      = ∑ k, (m (some k) + r (some k)) * a k + (m none + r none) * (gammaln (∑ k, a k) - ∑ k, gammaln (a k)) := by
  unfold concentrationBound concentrationContribution
  rw [dotProduct, Fintype.sum_option]
  simp only [concentrationFixed]
  have : ∑ k, (m (some k) + r (some k)) * a k = ∑ k, m (some k) * a k + ∑ k, a k * r (some k) := by
    rw [← Finset.sum_add_distrib]
    exact Finset.sum_congr rfl fun k _ => by ring
  rw [this]
  ring

/-- the same in terms of the mean of the statistic -/
theorem concentrationBound_eq (r m : Option ι → ℝ) (hN : 0 < m none + r none) (a : ι → ℝ) :
    concentrationBound r m a = (m none + r none) * (∑ k, concentrationMean r m k * a k + dirichletCgf a) := by
  rw [C60_concentration_bound, mul_add, Finset.mul_sum]
  congr 1
  refine Finset.sum_congr rfl fun k _ => ?_
  simp only [concentrationMean]
  field_simp

theorem concentrationStep_pos (mean a : ι → ℝ) (k : ι) : 0 < concentrationStep mean a k := invpsi_pos _

theorem digamma_concentrationStep (mean a : ι → ℝ) (k : ι) :
    digamma (concentrationStep mean a k) = digamma (∑ j, a j) + mean k := digamma_invpsi _

theorem sum_pos_of_pos [Nonempty ι] (a : ι → ℝ) (ha : ∀ k, 0 < a k) : 0 < ∑ k, a k :=
  Finset.sum_pos (fun k _ => ha k) Finset.univ_nonempty

theorem concentrationStep_value [Nonempty ι] (mean a : ι → ℝ) (ha : ∀ k, 0 < a k) (hne : concentrationStep mean a ≠ a) :
    ∑ k, mean k * a k + dirichletCgf a
      < ∑ k, mean k * concentrationStep mean a k + dirichletCgf (concentrationStep mean a) := by
  set b := concentrationStep mean a with hb
  have hbp : ∀ k, 0 < b k := concentrationStep_pos mean a
  have h1 := gammaln_tangent_le _ _ (sum_pos_of_pos a ha) (sum_pos_of_pos b hbp)
  have h2 : ∑ k, (gammaln (b k) + digamma (b k) * (a k - b k)) < ∑ k, gammaln (a k) := by
    obtain ⟨k, hk⟩ := Function.ne_iff.1 hne
    refine Finset.sum_lt_sum (fun k _ => gammaln_tangent_le _ _ (hbp k) (ha k)) ⟨k, Finset.mem_univ k, ?_⟩
    exact gammaln_tangent_lt _ _ (hbp k) (ha k) hk
  have h3 : ∑ k, digamma (b k) * (a k - b k)
      = digamma (∑ j, a j) * (∑ k, a k - ∑ k, b k) + ∑ k, mean k * a k - ∑ k, mean k * b k := by
    rw [← Finset.sum_sub_distrib, Finset.mul_sum, ← Finset.sum_add_distrib, ← Finset.sum_sub_distrib]
    refine Finset.sum_congr rfl fun k _ => ?_
    rw [hb, digamma_concentrationStep]
    ring
  rw [Finset.sum_add_distrib] at h2
  unfold dirichletCgf
  nlinarith

/-- **Every turn of the loop increases the bound**, unless it does not change the value. -/
theorem C60_concentration_step [Nonempty ι] (r m : Option ι → ℝ) (hN : 0 < m none + r none) (a : ι → ℝ) (ha : ∀ k, 0 < a k)
    (hne : concentrationStep (concentrationMean r m) a ≠ a) :
    concentrationBound r m a < concentrationBound r m (concentrationStep (concentrationMean r m) a) := by
  rw [concentrationBound_eq r m hN, concentrationBound_eq r m hN]
  exact mul_lt_mul_of_pos_left (concentrationStep_value _ a ha hne) hN

theorem concentrationStep_le [Nonempty ι] (r m : Option ι → ℝ) (hN : 0 < m none + r none) (a : ι → ℝ) (ha : ∀ k, 0 < a k) :
    concentrationBound r m a ≤ concentrationBound r m (concentrationStep (concentrationMean r m) a) := by
  by_cases h : concentrationStep (concentrationMean r m) a = a
  · rw [h]
  · exact (C60_concentration_step r m hN a ha h).le

theorem concentrationValue_tangent [Nonempty ι] (mean a c : ι → ℝ) (ha : ∀ k, 0 < a k) (hc : ∀ k, 0 < c k) :
    ∑ k, mean k * c k + dirichletCgf c ≤ ∑ k, mean k * a k + dirichletCgf a
      + ∑ k, (mean k + digamma (∑ j, a j) - digamma (a k)) * (c k - a k) := by
  have h := tangent_dirichlet a c ha hc
  unfold Tangent at h
  simp only [dirichletMoments, dotProduct, Pi.sub_apply] at h
  have e : ∑ k, (mean k + digamma (∑ j, a j) - digamma (a k)) * (c k - a k)
      = ∑ k, mean k * c k - ∑ k, mean k * a k - ∑ k, (digamma (a k) - digamma (∑ j, a j)) * (c k - a k) := by
    rw [← Finset.sum_sub_distrib, ← Finset.sum_sub_distrib]
    exact Finset.sum_congr rfl fun k _ => by ring
  rw [e]
  linarith

/-- The bound lies below its tangents. -/
theorem concentrationBound_tangent [Nonempty ι] (r m : Option ι → ℝ) (hN : 0 < m none + r none) (a c : ι → ℝ) (ha : ∀ k, 0 < a k)
    (hc : ∀ k, 0 < c k) :
    concentrationBound r m c ≤ concentrationBound r m a
      + (m none + r none) * ∑ k, (concentrationMean r m k + digamma (∑ j, a j) - digamma (a k)) * (c k - a k) := by
  rw [concentrationBound_eq r m hN, concentrationBound_eq r m hN, ← mul_add]
  exact mul_le_mul_of_nonneg_left (concentrationValue_tangent _ a c ha hc) hN.le

/-- **The fixed points of the iteration are exactly the maximisers of the bound.** -/
theorem C60_concentration_fixed_point [Nonempty ι] (r m : Option ι → ℝ) (hN : 0 < m none + r none) (a : ι → ℝ)
    (ha : ∀ k, 0 < a k) :
    concentrationStep (concentrationMean r m) a = a ↔
      ∀ c : ι → ℝ, (∀ k, 0 < c k) → concentrationBound r m c ≤ concentrationBound r m a := by
  constructor
  · intro h c hc
    refine (concentrationBound_tangent r m hN a c ha hc).trans (le_of_eq ?_)
    rw [add_eq_left, Finset.sum_eq_zero, mul_zero]
    intro k _
    have := digamma_concentrationStep (concentrationMean r m) a k
    rw [h] at this
    rw [this]
    ring
  · intro h
    by_contra hne
    exact absurd (h _ (concentrationStep_pos _ a)) (not_le.2 (C60_concentration_step r m hN a ha hne))

/-! #### the loop -/

variable {P : Type*}

/-- the iterates -/
noncomputable def concentrationIterate (mean : P → ι → ℝ) (a : P → ι → ℝ) : ℕ → P → ι → ℝ
  | 0 => a
  | n + 1 => fun p => concentrationStep (mean p) (concentrationIterate mean a n p)

theorem concentrationIterate_shift (mean a : P → ι → ℝ) (n : ℕ) :
    concentrationIterate mean (fun p => concentrationStep (mean p) (a p)) n = concentrationIterate mean a (n + 1) := by
  induction n with
  | zero => rfl
  | succ n ih => funext p; change concentrationStep _ _ = concentrationStep _ _; rw [ih]

/-- The loop stops at the first iterate whose relative change is at most the tolerance in all elements. -/
theorem concentrationLoop_eq_some (mean : P → ι → ℝ) (fuel : ℕ) (a a' : P → ι → ℝ) :
    concentrationLoop mean fuel a = some a' ↔ ∃ n < fuel, a' = concentrationIterate mean a (n + 1) ∧
      (∀ p k, |(concentrationIterate mean a (n + 1) p k - concentrationIterate mean a n p k)
        / concentrationIterate mean a (n + 1) p k| ≤ 1e-5) ∧
      ∀ i < n, ∃ p k, 1e-5 < |(concentrationIterate mean a (i + 1) p k - concentrationIterate mean a i p k)
        / concentrationIterate mean a (i + 1) p k| := by
  induction fuel generalizing a with
  | zero => simp [concentrationLoop]
  | succ fuel ih =>
    rw [concentrationLoop]
    simp only
    split_ifs with h
    · rw [ih]
      constructor
      · rintro ⟨n, hn, e, hs, hi⟩
        simp only [concentrationIterate_shift] at e hs hi
        refine ⟨n + 1, by omega, e, hs, fun i hin => ?_⟩
        rcases i with _ | i
        · exact h
        · exact hi i (by omega)
      · rintro ⟨n, hn, e, hs, hi⟩
        rcases n with _ | n
        · obtain ⟨p, k, hpk⟩ := h
          exact absurd hpk (not_lt.2 (hs p k))
        · refine ⟨n, by omega, ?_, ?_, ?_⟩ <;> simp only [concentrationIterate_shift]
          · exact e
          · exact hs
          · exact fun i hin => hi (i + 1) (by omega)
    · push Not at h
      constructor
      · intro e
        exact ⟨0, by omega, (Option.some.inj e).symm, h, fun i hi => absurd hi (by omega)⟩
      · rintro ⟨n, hn, e, hs, hi⟩
        rcases n with _ | n
        · rw [e]; rfl
        · obtain ⟨p, k, hpk⟩ := hi 0 (by omega)
          exact absurd hpk (not_lt.2 (h p k))

theorem concentrationIterate_pos (mean a : P → ι → ℝ) (ha : ∀ p k, 0 < a p k) (n : ℕ) (p : P) (k : ι) :
    0 < concentrationIterate mean a n p k := by
  cases n with
  | zero => exact ha p k
  | succ n => exact concentrationStep_pos _ _ _

theorem concentrationIterate_bound [Nonempty ι] (r m : P → Option ι → ℝ) (hN : ∀ p, 0 < m p none + r p none) (a : P → ι → ℝ)
    (ha : ∀ p k, 0 < a p k) (n : ℕ) (p : P) :
    concentrationBound (r p) (m p) (a p)
      ≤ concentrationBound (r p) (m p) (concentrationIterate (fun p => concentrationMean (r p) (m p)) a n p) := by
  induction n with
  | zero => exact le_rfl
  | succ n ih =>
    exact ih.trans (concentrationStep_le (r p) (m p) (hN p) _ (fun k => concentrationIterate_pos _ a ha n p k))

/-- The value after the update: it is not worse than all ones, where the loop starts, and how far the bound is from its
supremum is controlled by the last change of the sum, which is at most `1e-5` of the sum. -/
theorem C60_concentration_update [Nonempty ι] (r m : P → Option ι → ℝ) (hN : ∀ p, 0 < m p none + r p none) (fuel : ℕ)
    (u : P → Option ι → ℝ) (h : concentrationUpdate r m fuel = some u) (p : P) :
    ∃ a b : ι → ℝ, u p = concentrationFixed a ∧ (∀ k, 0 < a k) ∧ (∀ k, 0 < b k) ∧
      concentrationBound (r p) (m p) (fun _ => 1) ≤ concentrationBound (r p) (m p) a ∧
      |∑ k, a k - ∑ k, b k| ≤ 1e-5 * ∑ k, a k ∧
      ∀ c : ι → ℝ, (∀ k, 0 < c k) → concentrationBound (r p) (m p) c ≤ concentrationBound (r p) (m p) a
        + (m p none + r p none) * ((digamma (∑ k, a k) - digamma (∑ k, b k)) * (∑ k, c k - ∑ k, a k)) := by
  unfold concentrationUpdate at h
  obtain ⟨a', h1, h2⟩ := Option.map_eq_some_iff.1 h
  obtain ⟨n, -, e, hs, -⟩ := (concentrationLoop_eq_some _ fuel _ a').1 h1
  subst e
  set M := fun p => concentrationMean (r p) (m p)
  set It := concentrationIterate M (fun _ _ => 1)
  have hp : ∀ n k, 0 < It n p k := fun n k => concentrationIterate_pos M _ (fun _ _ => one_pos) n p k
  refine ⟨It (n + 1) p, It n p, by rw [← h2], hp (n + 1), hp n, ?_, ?_, ?_⟩
  · exact concentrationIterate_bound r m hN _ (fun _ _ => one_pos) (n + 1) p
  · rw [← Finset.sum_sub_distrib, Finset.mul_sum]
    refine (Finset.abs_sum_le_sum_abs _ _).trans (Finset.sum_le_sum fun k _ => ?_)
    have := hs p k
    rwa [abs_div, abs_of_pos (hp (n + 1) k), div_le_iff₀ (hp (n + 1) k)] at this
  · intro c hc
    refine (concentrationBound_tangent (r p) (m p) (hN p) (It (n + 1) p) c (hp (n + 1)) hc).trans (le_of_eq ?_)
    congr 2
    rw [← Finset.sum_sub_distrib, Finset.mul_sum]
    refine Finset.sum_congr rfl fun k _ => ?_
    have : digamma (It (n + 1) p k) = digamma (∑ j, It n p j) + M p k := digamma_concentrationStep _ _ k
    rw [this]
    ring

/-! #### termination -/

theorem concentrationStep_lt {mean a b : ι → ℝ} (ha : 0 < ∑ j, a j) (hab : ∑ j, a j < ∑ j, b j) (k : ι) :
    concentrationStep mean a k < concentrationStep mean b k :=
  invpsi_strictMono (by linarith [digamma_strictMonoOn ha (lt_trans ha hab) hab])

theorem concentrationStep_mono {mean a b : ι → ℝ} (ha : 0 < ∑ j, a j) (hab : ∑ j, a j ≤ ∑ j, b j) (k : ι) :
    concentrationStep mean a k ≤ concentrationStep mean b k :=
  invpsi_strictMono.monotone
    (by linarith [digamma_strictMonoOn.monotoneOn ha (lt_of_lt_of_le ha hab) hab])

/-- the change of the sum has the direction to the sum of a fixed point -/
theorem concentrationStep_toward [Nonempty ι] (mean a c : ι → ℝ) (ha : ∀ k, 0 < a k) (hc : ∀ k, 0 < c k)
    (hfix : concentrationStep mean c = c) :
    (digamma (∑ k, concentrationStep mean a k) - digamma (∑ k, a k)) * (∑ k, concentrationStep mean a k - ∑ k, c k)
      ≤ 0 := by
  set b := concentrationStep mean a with hb
  have hbp : ∀ k, 0 < b k := concentrationStep_pos mean a
  have h1 := concentrationValue_tangent mean b c hbp hc
  have h2 := concentrationValue_tangent mean c b hc hbp
  have e1 : ∑ k, (mean k + digamma (∑ j, b j) - digamma (b k)) * (c k - b k)
      = (digamma (∑ j, b j) - digamma (∑ j, a j)) * (∑ k, c k - ∑ k, b k) := by
    rw [← Finset.sum_sub_distrib, Finset.mul_sum]
    refine Finset.sum_congr rfl fun k _ => ?_
    have : digamma (b k) = digamma (∑ j, a j) + mean k := digamma_concentrationStep _ _ k
    rw [this]
    ring
  have e2 : ∑ k, (mean k + digamma (∑ j, c j) - digamma (c k)) * (b k - c k) = 0 := by
    refine Finset.sum_eq_zero fun k _ => ?_
    have := digamma_concentrationStep mean c k
    rw [hfix] at this
    rw [this]
    ring
  rw [e1] at h1
  rw [e2] at h2
  nlinarith

theorem concentrationStep_below [Nonempty ι] (mean a c : ι → ℝ) (ha : ∀ k, 0 < a k) (hc : ∀ k, 0 < c k)
    (hfix : concentrationStep mean c = c) (h : ∑ k, a k ≤ ∑ k, c k) :
    ∑ k, a k ≤ ∑ k, concentrationStep mean a k ∧ ∀ k, concentrationStep mean a k ≤ c k := by
  have has := sum_pos_of_pos a ha
  have h1 : ∀ k, concentrationStep mean a k ≤ c k := fun k => by
    have := concentrationStep_mono (mean := mean) has h k
    rwa [hfix] at this
  refine ⟨?_, h1⟩
  rcases h.lt_or_eq with h | h
  · by_contra hc'
    push Not at hc'
    have h2 : ∑ k, concentrationStep mean a k < ∑ k, c k := by linarith
    have h3 := digamma_strictMonoOn (sum_pos_of_pos _ (concentrationStep_pos mean a)) has hc'
    have := concentrationStep_toward mean a c ha hc hfix
    nlinarith
  · have : ∀ k, c k ≤ concentrationStep mean a k := fun k => by
      have := concentrationStep_mono (mean := mean) (sum_pos_of_pos c hc) h.ge k
      rwa [hfix] at this
    rw [h]
    exact Finset.sum_le_sum fun k _ => this k

theorem concentrationStep_above [Nonempty ι] (mean a c : ι → ℝ) (ha : ∀ k, 0 < a k) (hc : ∀ k, 0 < c k)
    (hfix : concentrationStep mean c = c) (h : ∑ k, c k ≤ ∑ k, a k) :
    ∑ k, concentrationStep mean a k ≤ ∑ k, a k ∧ ∀ k, c k ≤ concentrationStep mean a k := by
  have has := sum_pos_of_pos a ha
  have h1 : ∀ k, c k ≤ concentrationStep mean a k := fun k => by
    have := concentrationStep_mono (mean := mean) (sum_pos_of_pos c hc) h k
    rwa [hfix] at this
  refine ⟨?_, h1⟩
  rcases h.lt_or_eq with h | h
  · by_contra hc'
    push Not at hc'
    have h2 : ∑ k, c k < ∑ k, concentrationStep mean a k := by linarith
    have h3 := digamma_strictMonoOn has (sum_pos_of_pos _ (concentrationStep_pos mean a)) hc'
    have := concentrationStep_toward mean a c ha hc hfix
    nlinarith
  · have : ∀ k, concentrationStep mean a k ≤ c k := fun k => by
      have := concentrationStep_mono (mean := mean) has h.ge k
      rwa [hfix] at this
    rw [← h]
    exact Finset.sum_le_sum fun k _ => this k

/-- If there is a fixed point, the iterates converge, to positive limits. -/
theorem concentrationIterate_conv [Nonempty ι] (mean a : P → ι → ℝ) (ha : ∀ p k, 0 < a p k) (p : P) (c : ι → ℝ)
    (hc : ∀ k, 0 < c k) (hfix : concentrationStep (mean p) c = c) (k : ι) :
    ∃ l, 0 < l ∧ Tendsto (fun n => concentrationIterate mean a n p k) atTop (𝓝 l) := by
  set It := fun n => concentrationIterate mean a n p
  have hpos : ∀ n k, 0 < It n k := fun n k => concentrationIterate_pos mean a ha n p k
  have hsum : ∀ n, 0 < ∑ j, It n j := fun n => sum_pos_of_pos _ (hpos n)
  have hIt : ∀ n, It (n + 1) = concentrationStep (mean p) (It n) := fun n => rfl
  rcases le_total (∑ j, It 0 j) (∑ j, c j) with h0 | h0
  · have hle : ∀ n, ∑ j, It n j ≤ ∑ j, c j := by
      intro n
      induction n with
      | zero => exact h0
      | succ n ih =>
        exact Finset.sum_le_sum fun j _ => (concentrationStep_below (mean p) (It n) c (hpos n) hc hfix ih).2 j
    have hmono : Monotone fun n => It (n + 1) k := monotone_nat_of_le_succ fun n =>
      concentrationStep_mono (hsum n) (concentrationStep_below (mean p) (It n) c (hpos n) hc hfix (hle n)).1 k
    have hB : BddAbove (range fun n => It (n + 1) k) := ⟨c k, by
      rintro _ ⟨n, rfl⟩
      exact (concentrationStep_below (mean p) (It n) c (hpos n) hc hfix (hle n)).2 k⟩
    refine ⟨_, ?_, (tendsto_add_atTop_iff_nat 1).1 (tendsto_atTop_ciSup hmono hB)⟩
    exact lt_of_lt_of_le (hpos 1 k) (le_ciSup hB 0)
  · have hle : ∀ n, ∑ j, c j ≤ ∑ j, It n j := by
      intro n
      induction n with
      | zero => exact h0
      | succ n ih =>
        exact Finset.sum_le_sum fun j _ => (concentrationStep_above (mean p) (It n) c (hpos n) hc hfix ih).2 j
    have hanti : Antitone fun n => It (n + 1) k := antitone_nat_of_succ_le fun n =>
      concentrationStep_mono (hsum (n + 1)) (concentrationStep_above (mean p) (It n) c (hpos n) hc hfix (hle n)).1 k
    have hb : ∀ n, c k ≤ It (n + 1) k := fun n => (concentrationStep_above (mean p) (It n) c (hpos n) hc hfix (hle n)).2 k
    have hB : BddBelow (range fun n => It (n + 1) k) := ⟨c k, by rintro _ ⟨n, rfl⟩; exact hb n⟩
    refine ⟨_, ?_, (tendsto_add_atTop_iff_nat 1).1 (tendsto_atTop_ciInf hanti hB)⟩
    exact lt_of_lt_of_le (hc k) (le_ciInf hb)

/-- **If the bound has a maximiser in every plate, the loop ends.** -/
theorem C60_concentration_terminates [Nonempty ι] [Finite P] (r m : P → Option ι → ℝ) (hN : ∀ p, 0 < m p none + r p none)
    (hmax : ∀ p, ∃ c : ι → ℝ, (∀ k, 0 < c k) ∧ ∀ a : ι → ℝ, (∀ k, 0 < a k) →
      concentrationBound (r p) (m p) a ≤ concentrationBound (r p) (m p) c) :
    ∃ fuel u, concentrationUpdate r m fuel = some u := by
  set M := fun p => concentrationMean (r p) (m p)
  set It := concentrationIterate M (fun _ _ => 1) with hItd
  have hev : ∀ p k, ∀ᶠ n in atTop, |(It (n + 1) p k - It n p k) / It (n + 1) p k| ≤ 1e-5 := by
    intro p k
    obtain ⟨c, hc, hcm⟩ := hmax p
    have hfix := (C60_concentration_fixed_point (r p) (m p) (hN p) c hc).2 hcm
    obtain ⟨l, hl, ht⟩ := concentrationIterate_conv M (fun _ _ => 1) (fun _ _ => one_pos) p c hc hfix k
    have ht1 := (tendsto_add_atTop_iff_nat 1).2 ht
    have h := ((ht1.sub ht).div ht1 hl.ne').abs
    rw [sub_self, zero_div, abs_zero] at h
    exact (h.eventually_lt_const (show (0 : ℝ) < 1e-5 by norm_num)).mono fun n hn => hn.le
  have hall : ∀ᶠ n in atTop, ∀ p k, |(It (n + 1) p k - It n p k) / It (n + 1) p k| ≤ 1e-5 :=
    eventually_all.2 fun p => eventually_all.2 fun k => hev p k
  classical
  have hex := hall.exists
  have hspec := Nat.find_spec hex
  set n := Nat.find hex with hn
  have hl : concentrationLoop M (n + 1) (fun _ _ => 1) = some (It (n + 1)) := by
    refine (concentrationLoop_eq_some M (n + 1) _ _).2 ⟨n, by omega, rfl, hspec, fun i hi => ?_⟩
    have := Nat.find_min hex hi
    push Not at this
    exact this
  exact ⟨n + 1, _, by rw [concentrationUpdate, hl]; rfl⟩

/-- An iterate is a fixed point only if the sum of the starting point already was that of the fixed point. -/
theorem concentrationIterate_sum [Nonempty ι] (mean a : P → ι → ℝ) (ha : ∀ p k, 0 < a p k) (p : P) (n : ℕ) (c : ι → ℝ)
    (hfix : concentrationStep (mean p) c = c) (h : concentrationIterate mean a (n + 1) p = c) :
    ∑ k, a p k = ∑ k, c k := by
  have hc : ∀ k, 0 < c k := fun k => by rw [← hfix]; exact concentrationStep_pos _ _ _
  have hcs := sum_pos_of_pos c hc
  have key : ∀ b : ι → ℝ, (∀ k, 0 < b k) → ∑ k, concentrationStep (mean p) b k = ∑ k, c k → ∑ k, b k = ∑ k, c k := by
    intro b hb hs
    have hbs := sum_pos_of_pos b hb
    rcases lt_trichotomy (∑ k, b k) (∑ k, c k) with h | h | h
    · have := Finset.sum_lt_sum_of_nonempty Finset.univ_nonempty
        fun k (_ : k ∈ Finset.univ) => concentrationStep_lt (mean := mean p) hbs h k
      rw [hfix, hs] at this
      exact absurd this (lt_irrefl _)
    · exact h
    · have := Finset.sum_lt_sum_of_nonempty Finset.univ_nonempty
        fun k (_ : k ∈ Finset.univ) => concentrationStep_lt (mean := mean p) hcs h k
      rw [hfix, hs] at this
      exact absurd this (lt_irrefl _)
  have : ∀ i, ∑ k, concentrationIterate mean a i p k = ∑ k, c k → ∑ k, a p k = ∑ k, c k := by
    intro i
    induction i with
    | zero => exact fun h => h
    | succ i ih => exact fun h => ih (key _ (fun k => concentrationIterate_pos mean a ha i p k) h)
  exact this (n + 1) (by rw [h])

/-! #### the maximiser is unique -/

theorem dirichletCgf_add_single [Nonempty ι] [DecidableEq ι] (a : ι → ℝ) (ha : ∀ k, 0 < a k) (j : ι) :
    dirichletCgf (a + Pi.single j 1) = dirichletCgf a + (Real.log (∑ k, a k) - Real.log (a j)) := by
  have h1 : ∑ k, (a + Pi.single j 1 : ι → ℝ) k = ∑ k, a k + 1 := by
    simp [Finset.sum_add_distrib]
  have h2 : ∑ k, gammaln ((a + Pi.single j 1 : ι → ℝ) k) = ∑ k, gammaln (a k) + Real.log (a j) := by
    have e : ∀ k, gammaln ((a + Pi.single j 1 : ι → ℝ) k) = gammaln (a k) + if k = j then Real.log (a j) else 0 := by
      intro k
      by_cases hk : k = j
      · subst hk
        simp [gammaln_add_one _ (ha k)]
      · simp [hk]
    simp_rw [e]
    rw [Finset.sum_add_distrib]
    simp
  unfold dirichletCgf
  rw [h1, h2, gammaln_add_one _ (sum_pos_of_pos a ha)]
  ring

theorem dirichletCgf_midpoint [Nonempty ι] (a c : ι → ℝ) (ha : ∀ k, 0 < a k) (hc : ∀ k, 0 < c k) :
    (dirichletCgf a + dirichletCgf c) / 2 ≤ dirichletCgf fun k => (a k + c k) / 2 := by
  have hb : ∀ k, 0 < (a k + c k) / 2 := fun k => by linarith [ha k, hc k]
  have h1 := tangent_dirichlet _ a hb ha
  have h2 := tangent_dirichlet _ c hb hc
  unfold Tangent at h1 h2
  have e : dirichletMoments (fun k => (a k + c k) / 2) ⬝ᵥ (a - fun k => (a k + c k) / 2)
      = -(dirichletMoments (fun k => (a k + c k) / 2) ⬝ᵥ (c - fun k => (a k + c k) / 2)) := by
    rw [← dotProduct_neg]
    congr 1
    funext k
    simp only [Pi.sub_apply, Pi.neg_apply]
    ring
  rw [e] at h1
  linarith

/-- the expected products of two probabilities -/
noncomputable def pairMean [DecidableEq ι] (a : ι → ℝ) (j k : ι) : ℝ :=
  a j * (a k + Pi.single (M := fun _ => ℝ) j 1 k) / ((∑ i, a i) * (∑ i, a i + 1))

theorem pairMean_pos [Nonempty ι] [DecidableEq ι] (a : ι → ℝ) (ha : ∀ k, 0 < a k) (j k : ι) : 0 < pairMean a j k := by
  have := sum_pos_of_pos a ha
  have h2 : (0 : ℝ) ≤ Pi.single (M := fun _ => ℝ) j 1 k := by
    by_cases h : k = j
    · subst h; simp
    · simp [h]
  have := ha j
  have := ha k
  unfold pairMean
  positivity

theorem sum_pairMean [Nonempty ι] [DecidableEq ι] (a : ι → ℝ) (ha : ∀ k, 0 < a k) (j : ι) :
    ∑ k, pairMean a j k = a j / ∑ i, a i := by
  have := sum_pos_of_pos a ha
  unfold pairMean
  rw [← Finset.sum_div, ← Finset.mul_sum, Finset.sum_add_distrib]
  have e : ∑ k, Pi.single (M := fun _ => ℝ) j 1 k = 1 := by simp
  rw [e]
  field_simp

theorem dirichletCgf_pair [Nonempty ι] [DecidableEq ι] (a : ι → ℝ) (ha : ∀ k, 0 < a k) (j k : ι) :
    dirichletCgf (a + Pi.single j 1 + Pi.single k 1) = dirichletCgf a - Real.log (pairMean a j k) := by
  have hs := sum_pos_of_pos a ha
  have h2 : ∀ k, (0 : ℝ) ≤ Pi.single (M := fun _ => ℝ) j 1 k := by
    intro k
    by_cases h : k = j
    · subst h; simp
    · simp [h]
  have ha' : ∀ k, 0 < (a + Pi.single j 1 : ι → ℝ) k := fun k => by
    rw [Pi.add_apply]; linarith [ha k, h2 k]
  rw [dirichletCgf_add_single _ ha', dirichletCgf_add_single _ ha]
  have h1 : ∑ k, (a + Pi.single j 1 : ι → ℝ) k = ∑ k, a k + 1 := by
    simp [Finset.sum_add_distrib]
  have h3 : (a k + Pi.single (M := fun _ => ℝ) j 1 k) ≠ 0 := (ha' k).ne'
  rw [h1, pairMean, Real.log_div (mul_ne_zero (ha j).ne' h3) (by positivity), Real.log_mul (ha j).ne' h3,
    Real.log_mul hs.ne' (by positivity), Pi.add_apply]
  ring

/-- the generalised mean inequality for two positive numbers -/
theorem le_mean_of_log_le {x y z : ℝ} (hx : 0 < x) (hy : 0 < y) (hz : 0 < z)
    (h : Real.log z ≤ (Real.log x + Real.log y) / 2) : z ≤ (x + y) / 2 ∧ (z = (x + y) / 2 → x = y) := by
  have h1 : z ^ 2 ≤ x * y := by
    rw [← Real.log_le_log_iff (by positivity) (by positivity), Real.log_pow, Real.log_mul hx.ne' hy.ne']
    push_cast
    linarith
  constructor
  · nlinarith [sq_nonneg (x - y)]
  · intro e
    have : (x - y) ^ 2 ≤ 0 := by rw [e] at h1; nlinarith
    have := pow_eq_zero_iff (two_ne_zero) |>.1 (le_antisymm this (sq_nonneg (x - y)))
    linarith

/-- Two fixed points of the iteration are equal, if there are at least two categories. -/
theorem concentrationStep_unique [Nontrivial ι] (mean a c : ι → ℝ) (ha : ∀ k, 0 < a k) (hc : ∀ k, 0 < c k)
    (hfa : concentrationStep mean a = a) (hfc : concentrationStep mean c = c) : a = c := by
  classical
  have hmaxi : ∀ x y : ι → ℝ, (∀ k, 0 < x k) → (∀ k, 0 < y k) → concentrationStep mean x = x →
      ∑ k, mean k * y k + dirichletCgf y ≤ ∑ k, mean k * x k + dirichletCgf x := by
    intro x y hx hy hf
    refine (concentrationValue_tangent mean x y hx hy).trans (le_of_eq ?_)
    rw [add_eq_left]
    refine Finset.sum_eq_zero fun k _ => ?_
    have := digamma_concentrationStep mean x k
    rw [hf] at this
    rw [this]
    ring
  set b : ι → ℝ := fun k => (a k + c k) / 2 with hb
  have hbp : ∀ k, 0 < b k := fun k => by simp only [hb]; linarith [ha k, hc k]
  have h1 := hmaxi a c ha hc hfa
  have h2 := hmaxi c a hc ha hfc
  have h3 := hmaxi a b ha hbp hfa
  have e : ∑ k, mean k * b k = (∑ k, mean k * a k + ∑ k, mean k * c k) / 2 := by
    rw [← Finset.sum_add_distrib, Finset.sum_div]
    exact Finset.sum_congr rfl fun k _ => by simp only [hb]; ring
  have hcb : dirichletCgf b ≤ (dirichletCgf a + dirichletCgf c) / 2 := by linarith
  have hsum : ∀ x : ι → ℝ, (∀ k, 0 < x k) → ∑ j, ∑ k, pairMean x j k = 1 := by
    intro x hx
    simp_rw [sum_pairMean x hx]
    rw [← Finset.sum_div, div_self (sum_pos_of_pos x hx).ne']
  have hle : ∀ j k, pairMean b j k ≤ (pairMean a j k + pairMean c j k) / 2 ∧
      (pairMean b j k = (pairMean a j k + pairMean c j k) / 2 → pairMean a j k = pairMean c j k) := by
    intro j k
    refine le_mean_of_log_le (pairMean_pos a ha j k) (pairMean_pos c hc j k) (pairMean_pos b hbp j k) ?_
    have hsh : ∀ x : ι → ℝ, (∀ i, 0 < x i) → ∀ i, 0 < (x + Pi.single j 1 + Pi.single k 1 : ι → ℝ) i := by
      intro x hx i
      have h0 : ∀ l : ι, (0 : ℝ) ≤ Pi.single (M := fun _ => ℝ) l 1 i := by
        intro l
        by_cases h : i = l
        · subst h; simp
        · simp [h]
      simp only [Pi.add_apply]
      linarith [hx i, h0 j, h0 k]
    have hm := dirichletCgf_midpoint _ _ (hsh a ha) (hsh c hc)
    have em : (fun i => ((a + Pi.single j 1 + Pi.single k 1 : ι → ℝ) i + (c + Pi.single j 1 + Pi.single k 1 : ι → ℝ) i) / 2)
        = b + Pi.single j 1 + Pi.single k 1 := by
      funext i
      simp only [Pi.add_apply, hb]
      ring
    rw [em, dirichletCgf_pair a ha, dirichletCgf_pair c hc, dirichletCgf_pair b hbp] at hm
    linarith
  have heq : ∀ j k, pairMean a j k = pairMean c j k := by
    have ht : ∑ j, ∑ k, ((pairMean a j k + pairMean c j k) / 2 - pairMean b j k) = 0 := by
      simp_rw [Finset.sum_sub_distrib, ← Finset.sum_div, Finset.sum_add_distrib]
      rw [hsum a ha, hsum c hc, hsum b hbp]
      norm_num
    intro j k
    have hj := (Finset.sum_eq_zero_iff_of_nonneg fun j _ =>
      Finset.sum_nonneg fun k _ => sub_nonneg.2 (hle j k).1).1 ht j (Finset.mem_univ j)
    have hk := (Finset.sum_eq_zero_iff_of_nonneg fun k _ => sub_nonneg.2 (hle j k).1).1 hj k (Finset.mem_univ k)
    exact (hle j k).2 (by linarith)
  have hA := sum_pos_of_pos a ha
  have hC := sum_pos_of_pos c hc
  have hw : ∀ j, a j / ∑ i, a i = c j / ∑ i, c i := fun j => by
    rw [← sum_pairMean a ha, ← sum_pairMean c hc]
    exact Finset.sum_congr rfl fun k _ => heq j k
  have hS : ∑ i, a i = ∑ i, c i := by
    obtain ⟨j, k, hjk⟩ := exists_pair_ne ι
    have h := heq j k
    have hjk' : k ≠ j := fun h => hjk h.symm
    have f : ∀ x : ι → ℝ, pairMean x j k
        = (x j / ∑ i, x i) * (x k / ∑ i, x i) * ((∑ i, x i) / (∑ i, x i + 1)) ∨ ∑ i, x i = 0 := by
      intro x
      by_cases hx : ∑ i, x i = 0
      · exact Or.inr hx
      · left
        unfold pairMean
        rw [Pi.single_eq_of_ne hjk', add_zero]
        field_simp
    have fa := (f a).resolve_right hA.ne'
    have fc := (f c).resolve_right hC.ne'
    rw [fa, fc, hw j, hw k] at h
    have hp : 0 < (c j / ∑ i, c i) * (c k / ∑ i, c i) := mul_pos (div_pos (hc j) hC) (div_pos (hc k) hC)
    have h' := mul_left_cancel₀ hp.ne' h
    rw [div_eq_div_iff (by positivity) (by positivity)] at h'
    linarith
  funext j
  have := hw j
  rw [hS] at this
  exact (div_left_inj' hC.ne').1 this

/-- **C60 fails for the tolerance.**  When the node has the maximising value `c`, an update decreases the bound, in every
case but that the maximiser has the sum `D` of the starting point of the loop. -/
theorem C60_concentration_refuted [Nontrivial ι] (r m : Option ι → ℝ) (hN : 0 < m none + r none) (c : ι → ℝ)
    (hc : ∀ k, 0 < c k) (hmax : ∀ a : ι → ℝ, (∀ k, 0 < a k) → concentrationBound r m a ≤ concentrationBound r m c)
    (hD : ∑ k, c k ≠ Fintype.card ι) :
    ∃ fuel u, concentrationUpdate (fun _ : Unit => r) (fun _ => m) fuel = some u ∧
      m ⬝ᵥ u () + concentrationContribution r (u ())
        < m ⬝ᵥ concentrationFixed c + concentrationContribution r (concentrationFixed c) := by
  obtain ⟨fuel, u, h⟩ := C60_concentration_terminates (fun _ : Unit => r) (fun _ => m) (fun _ => hN)
    (fun _ => ⟨c, hc, hmax⟩)
  refine ⟨fuel, u, h, ?_⟩
  obtain ⟨a', h1, h2⟩ := Option.map_eq_some_iff.1 h
  obtain ⟨n, -, e, -, -⟩ := (concentrationLoop_eq_some _ fuel _ a').1 h1
  have ha : ∀ k, 0 < a' () k := fun k => by
    rw [e]; exact concentrationIterate_pos _ _ (fun _ _ => one_pos) _ () k
  rw [← h2]
  change concentrationBound r m (a' ()) < concentrationBound r m c
  refine lt_of_le_of_ne (hmax _ ha) fun heq => hD ?_
  have hcfix := (C60_concentration_fixed_point r m hN c hc).2 hmax
  have hfix := (C60_concentration_fixed_point r m hN (a' ()) ha).2 fun b hb => by rw [heq]; exact hmax b hb
  have hs := concentrationIterate_sum (fun _ : Unit => concentrationMean r m) (fun _ _ => 1) (fun _ _ => one_pos) () n
    (a' ()) hfix (by rw [e])
  -- the sums of two fixed points agree
  have hu := concentrationStep_unique (concentrationMean r m) (a' ()) c ha hc hfix hcfix
  have hs' : ∑ _k : ι, (1 : ℝ) = ∑ k, a' () k := hs
  rw [← hu, ← hs']
  simp

/-! #### when there is a maximiser -/

theorem digamma_le_log (x : ℝ) (hx : 0 < x) : digamma x ≤ Real.log x := by
  have := gammaln_tangent_le x (x + 1) hx (by linarith)
  rw [gammaln_add_one x hx] at this
  linarith

theorem log_le_digamma (x : ℝ) (hx : 0 < x) : Real.log x - 1 / x ≤ digamma x := by
  have := gammaln_tangent_le (x + 1) x (by linarith) hx
  rw [gammaln_add_one x hx, digamma_add_one x hx] at this
  linarith

theorem concentrationStep_upper (mean a : ι → ℝ) (ha : 0 < ∑ j, a j) (k : ι) :
    concentrationStep mean a k ≤ 1 + (∑ j, a j) * Real.exp (mean k) := by
  set b := concentrationStep mean a k with hb
  have hbp : 0 < b := concentrationStep_pos mean a k
  have h1 := log_le_digamma b hbp
  have h2 : digamma b = digamma (∑ j, a j) + mean k := digamma_concentrationStep _ _ k
  have h3 := digamma_le_log _ ha
  have h4 : Real.log b - 1 / b ≤ Real.log (∑ j, a j) + mean k := by linarith
  have h5 : b * Real.exp (-(1 / b)) ≤ (∑ j, a j) * Real.exp (mean k) := by
    calc b * Real.exp (-(1 / b)) = Real.exp (Real.log b - 1 / b) := by
            rw [sub_eq_add_neg, Real.exp_add, Real.exp_log hbp]
      _ ≤ Real.exp (Real.log (∑ j, a j) + mean k) := Real.exp_le_exp.2 h4
      _ = _ := by rw [Real.exp_add, Real.exp_log ha]
  have h6 : b - 1 ≤ b * Real.exp (-(1 / b)) := by
    have := Real.add_one_le_exp (-(1 / b))
    have h7 := mul_le_mul_of_nonneg_left this hbp.le
    have h8 : b * (-(1 / b) + 1) = b - 1 := by field_simp; ring
    linarith
  linarith

theorem concentration_fixed_exists [Nontrivial ι] (mean : ι → ℝ) (h : ∑ k, Real.exp (mean k) < 1) :
    ∃ c : ι → ℝ, (∀ k, 0 < c k) ∧ concentrationStep mean c = c := by
  classical
  -- the sum after a step, as a function of the sum
  set g : ℝ → ℝ := fun s => ∑ k, invpsi (digamma s + mean k) with hg
  have gmono : ∀ s t, 0 < s → s ≤ t → g s ≤ g t := fun s t hs hst =>
    Finset.sum_le_sum fun k _ => invpsi_strictMono.monotone
      (by linarith [digamma_strictMonoOn.monotoneOn hs (lt_of_lt_of_le hs hst) hst])
  have hup : ∀ s, 0 < s → g s ≤ Fintype.card ι + s * ∑ k, Real.exp (mean k) := by
    intro s hs
    obtain ⟨a, has⟩ : ∃ a : ι → ℝ, ∑ j, a j = s := by
      obtain ⟨i⟩ := (inferInstance : Nonempty ι)
      exact ⟨Pi.single i s, by simp⟩
    have := Finset.sum_le_sum fun k (_ : k ∈ Finset.univ) => concentrationStep_upper mean a (by rw [has]; exact hs) k
    rw [Finset.sum_add_distrib, ← Finset.mul_sum, has] at this
    simp only [Finset.sum_const, Finset.card_univ, nsmul_eq_mul, mul_one] at this
    refine le_trans (le_of_eq ?_) this
    simp only [hg, concentrationStep, has]
  have hlow : ∃ s1, 0 < s1 ∧ s1 ≤ 1 ∧ s1 ≤ g s1 := by
    set B := ∑ k, |mean k| with hB
    have hB0 : 0 ≤ B := Finset.sum_nonneg fun k _ => abs_nonneg _
    have hs : 0 < 1 / (B + 1) := by positivity
    refine ⟨1 / (B + 1), hs, by rw [div_le_one (by positivity)]; linarith, ?_⟩
    set s := 1 / (B + 1) with hsd
    have hterm : ∀ k, s / 2 ≤ invpsi (digamma s + mean k) := by
      intro k
      rw [← invpsi_digamma (s / 2) (by positivity)]
      refine invpsi_strictMono.monotone ?_
      have e1 := digamma_add_one s hs
      have e2 := digamma_add_one (s / 2) (by positivity)
      have e3 : digamma (s / 2 + 1) ≤ digamma (s + 1) :=
        digamma_strictMonoOn.monotoneOn (by simp only [mem_Ioi]; positivity) (by simp only [mem_Ioi]; positivity)
          (by linarith)
      have e4 : 1 / s = B + 1 := by rw [hsd, one_div_one_div]
      have e5 : 1 / (s / 2) = 2 * (1 / s) := by field_simp
      have e6 : |mean k| ≤ B := Finset.single_le_sum (f := fun k => |mean k|) (fun k _ => abs_nonneg _) (Finset.mem_univ k)
      have e7 := neg_abs_le (mean k)
      rw [e5] at e2
      linarith
    have hcard : (2 : ℝ) ≤ Fintype.card ι := by exact_mod_cast Fintype.one_lt_card
    calc s ≤ Fintype.card ι * (s / 2) := by nlinarith
      _ = ∑ _k : ι, s / 2 := by simp
      _ ≤ g s := Finset.sum_le_sum fun k _ => hterm k
  obtain ⟨s1, hs1, hs11, hs1g⟩ := hlow
  obtain ⟨s2, hs2, hs2g⟩ : ∃ s2, 1 ≤ s2 ∧ g s2 ≤ s2 := by
    set E := ∑ k, Real.exp (mean k) with hE
    have hE0 : 0 ≤ E := Finset.sum_nonneg fun k _ => (Real.exp_pos _).le
    have hcard : (1 : ℝ) ≤ Fintype.card ι := by exact_mod_cast Fintype.card_pos
    have hpos : 0 < 1 - E := by linarith
    refine ⟨Fintype.card ι / (1 - E), by rw [le_div_iff₀ hpos]; linarith, ?_⟩
    refine (hup _ (by positivity)).trans (le_of_eq ?_)
    field_simp
    ring
  -- the supremum of the points where the sum does not decrease
  set S := {s | s ∈ Icc s1 s2 ∧ s ≤ g s} with hS
  have hSne : S.Nonempty := ⟨s1, ⟨le_rfl, by linarith⟩, hs1g⟩
  have hSb : BddAbove S := ⟨s2, fun s hs => hs.1.2⟩
  set t := sSup S with ht
  have ht1 : s1 ≤ t := le_csSup hSb ⟨⟨le_rfl, by linarith⟩, hs1g⟩
  have ht2 : t ≤ s2 := csSup_le hSne fun s hs => hs.1.2
  have htg : t ≤ g t := csSup_le hSne fun s hs => hs.2.trans (gmono s t (lt_of_lt_of_le hs1 hs.1.1) (le_csSup hSb hs))
  have htp : 0 < t := lt_of_lt_of_le hs1 ht1
  have hgt : g t ≤ t := by
    refine le_csSup hSb ⟨⟨ht1.trans htg, ?_⟩, gmono t (g t) htp htg⟩
    exact (gmono t s2 htp ht2).trans hs2g
  have hfix : g t = t := le_antisymm hgt htg
  refine ⟨fun k => invpsi (digamma t + mean k), fun k => invpsi_pos _, ?_⟩
  funext k
  change invpsi (digamma (g t) + mean k) = _
  rw [hfix]

theorem concentration_fixed_sum [Nontrivial ι] (mean c : ι → ℝ) (hc : ∀ k, 0 < c k) (hfix : concentrationStep mean c = c) :
    ∑ k, Real.exp (mean k) < 1 := by
  classical
  have hC := sum_pos_of_pos c hc
  have hm : ∀ k, dirichletMoments c k = mean k := by
    intro k
    have := digamma_concentrationStep mean c k
    rw [hfix] at this
    rw [dirichletMoments, this]
    ring
  have hpos1 : ∀ (l i : ι), (0 : ℝ) ≤ Pi.single (M := fun _ => ℝ) l 1 i := by
    intro l i
    by_cases h : i = l
    · subst h; simp
    · simp [h]
  -- Jensen's inequality for one and for two probabilities
  have h1 : ∀ j, Real.exp (mean j) ≤ c j / ∑ i, c i := by
    intro j
    have ht := tangent_dirichlet c (c + Pi.single j 1) hc fun i => by
      rw [Pi.add_apply]; linarith [hc i, hpos1 j i]
    unfold Tangent at ht
    rw [dirichletCgf_add_single c hc, add_sub_cancel_left, dotProduct_single, hm, mul_one] at ht
    rw [← Real.exp_log (div_pos (hc j) hC), Real.log_div (hc j).ne' hC.ne']
    exact Real.exp_le_exp.2 (by linarith)
  have h2 : ∀ j k, Real.exp (mean j) * Real.exp (mean k) ≤ pairMean c j k := by
    intro j k
    have ht := tangent_dirichlet c (c + Pi.single j 1 + Pi.single k 1) hc fun i => by
      simp only [Pi.add_apply]; linarith [hc i, hpos1 j i, hpos1 k i]
    unfold Tangent at ht
    rw [dirichletCgf_pair c hc, show c + Pi.single j 1 + Pi.single k 1 - c = Pi.single j (1 : ℝ) + Pi.single k (1 : ℝ) by
      rw [add_assoc, add_sub_cancel_left], dotProduct_add, dotProduct_single, dotProduct_single, hm, hm, mul_one, mul_one]
      at ht
    rw [← Real.exp_add, ← Real.exp_log (pairMean_pos c hc j k)]
    exact Real.exp_le_exp.2 (by linarith)
  have hsum1 : ∑ j, c j / ∑ i, c i = 1 := by rw [← Finset.sum_div, div_self hC.ne']
  refine lt_of_le_of_ne ?_ fun he => ?_
  · rw [← hsum1]
    exact Finset.sum_le_sum fun j _ => h1 j
  · have e1 : ∀ j, Real.exp (mean j) = c j / ∑ i, c i := by
      intro j
      refine (Finset.sum_eq_sum_iff_of_le (fun j _ => h1 j)).1 (by rw [he, hsum1]) j (Finset.mem_univ j)
    obtain ⟨j, k, hjk⟩ := exists_pair_ne ι
    have h := h2 j k
    rw [e1, e1, pairMean, Pi.single_eq_of_ne (fun h => hjk h.symm), add_zero, div_mul_div_comm] at h
    have hp := mul_pos (hc j) (hc k)
    rw [div_le_div_iff_of_pos_left hp (by positivity) (by positivity)] at h
    nlinarith

/-- **There is a maximiser exactly if the exponentials of the mean logarithms sum to less than one.** -/
theorem C60_concentration_maximiser_iff [Nontrivial ι] (r m : Option ι → ℝ) (hN : 0 < m none + r none) :
    (∃ c : ι → ℝ, (∀ k, 0 < c k) ∧ ∀ a : ι → ℝ, (∀ k, 0 < a k) → concentrationBound r m a ≤ concentrationBound r m c)
      ↔ ∑ k, Real.exp ((m (some k) + r (some k)) / (m none + r none)) < 1 := by
  constructor
  · rintro ⟨c, hc, hmax⟩
    exact concentration_fixed_sum _ c hc ((C60_concentration_fixed_point r m hN c hc).2 hmax)
  · intro h
    obtain ⟨c, hc, hfix⟩ := concentration_fixed_exists (concentrationMean r m) h
    exact ⟨c, hc, (C60_concentration_fixed_point r m hN c hc).1 hfix⟩

/-- **C60 fails for the default regularisation without data**: the bound has no maximiser, the value at which the loop
stops is determined by the tolerance only. -/
theorem C60_concentration_default_refuted [Nontrivial ι] :
    ¬∃ c : ι → ℝ, (∀ k, 0 < c k) ∧ ∀ a : ι → ℝ, (∀ k, 0 < a k) →
      concentrationBound (concentrationDefault ι) 0 a ≤ concentrationBound (concentrationDefault ι) 0 c := by
  rw [C60_concentration_maximiser_iff (concentrationDefault ι) 0 (by simp [concentrationDefault])]
  have hcard : (0 : ℝ) < Fintype.card ι := by exact_mod_cast Fintype.card_pos
  simp [concentrationDefault, Real.exp_neg, Real.exp_log hcard, hcard.ne']

/-- **The estimate from observed probability vectors**, which are not all equal, without regularisation: there is a
maximum likelihood estimate, and the loop ends. -/
theorem C60_concentration_mle {J : Type*} [Fintype J] [Nontrivial ι] (p : J → ι → ℝ) (hp : ∀ j k, 0 < p j k)
    (hs : ∀ j, ∑ k, p j k = 1) (i j : J) (hij : p i ≠ p j) :
    (∃ c : ι → ℝ, (∀ k, 0 < c k) ∧ ∀ a : ι → ℝ, (∀ k, 0 < a k) →
      ∏ j, (Real.Gamma (∑ k, a k) / (∏ k, Real.Gamma (a k)) * ∏ k, p j k ^ (a k - 1))
        ≤ ∏ j, (Real.Gamma (∑ k, c k) / (∏ k, Real.Gamma (c k)) * ∏ k, p j k ^ (c k - 1))) ∧
    ∃ fuel u, concentrationUpdate (fun _ : Unit => 0) (fun _ => ∑ j, dirichletMsg (dirichletFixed (p j))) fuel = some u := by
  classical
  set m : Option ι → ℝ := ∑ j, dirichletMsg (dirichletFixed (p j)) with hm
  have h0 : m none = Fintype.card J := by simp [hm, Finset.sum_apply, dirichletMsg]
  have h1 : ∀ k, m (some k) = ∑ j, Real.log (p j k) := by
    intro k
    simp [hm, Finset.sum_apply, dirichletMsg, dirichletFixed, hs]
  have hJ : (0 : ℝ) < Fintype.card J := by
    have : Nonempty J := ⟨i⟩
    exact_mod_cast Fintype.card_pos
  have hN : 0 < m none + (0 : Option ι → ℝ) none := by simpa [h0] using hJ
  have hlt : ∑ k, Real.exp ((m (some k) + (0 : Option ι → ℝ) (some k)) / (m none + (0 : Option ι → ℝ) none)) < 1 := by
    have hw1 : ∑ _j : J, 1 / (Fintype.card J : ℝ) = 1 := by
      simp [hJ.ne']
    have hle : ∀ k, Real.exp ((m (some k) + (0 : Option ι → ℝ) (some k)) / (m none + (0 : Option ι → ℝ) none))
        = Real.exp (∑ j, (1 / (Fintype.card J : ℝ)) • Real.log (p j k)) := by
      intro k
      congr 1
      simp only [Pi.zero_apply, add_zero, h0, h1, smul_eq_mul]
      rw [← Finset.mul_sum]
      ring
    have hsum : ∑ k, ∑ j, (1 / (Fintype.card J : ℝ)) • Real.exp (Real.log (p j k)) = 1 := by
      rw [Finset.sum_comm]
      simp only [smul_eq_mul, Real.exp_log (hp _ _), ← Finset.mul_sum, hs]
      simp [hJ.ne']
    rw [← hsum]
    obtain ⟨k, hk⟩ := Function.ne_iff.1 hij
    refine Finset.sum_lt_sum (fun k _ => ?_) ⟨k, Finset.mem_univ k, ?_⟩
    · rw [hle]
      exact convexOn_exp.map_sum_le (fun j _ => by positivity) hw1 fun j _ => mem_univ _
    · rw [hle]
      refine strictConvexOn_exp.map_sum_lt (fun j _ => by positivity) hw1 (fun j _ => mem_univ _)
        ⟨i, Finset.mem_univ i, j, Finset.mem_univ j, fun h => hk ?_⟩
      exact Real.log_injOn_pos (hp i k) (hp j k) h
  obtain ⟨c, hc, hmax⟩ := (C60_concentration_maximiser_iff 0 m hN).2 hlt
  refine ⟨⟨c, hc, fun a ha => ?_⟩, C60_concentration_terminates (fun _ : Unit => 0) (fun _ => m) (fun _ => hN)
    fun _ => ⟨c, hc, hmax⟩⟩
  have key : ∀ b : ι → ℝ, (∀ k, 0 < b k) →
      ∏ j, (Real.Gamma (∑ k, b k) / (∏ k, Real.Gamma (b k)) * ∏ k, p j k ^ (b k - 1))
        = Real.exp (concentrationBound 0 m b) * Real.exp (-∑ j, ∑ k, Real.log (p j k)) := by
    intro b hb
    rw [← Real.exp_add]
    have e : concentrationBound 0 m b + -∑ j, ∑ k, Real.log (p j k)
        = ∑ j, ((gammaln (∑ k, b k) - ∑ k, gammaln (b k)) + ∑ k, Real.log (p j k) * (b k - 1)) := by
      rw [C60_concentration_bound, Finset.sum_add_distrib]
      simp only [h0, h1, Pi.zero_apply, add_zero, Finset.sum_const, Finset.card_univ, nsmul_eq_mul, mul_sub, mul_one,
        Finset.sum_sub_distrib, Finset.sum_mul]
      rw [Finset.sum_comm]
      ring
    rw [e, Real.exp_sum]
    refine Finset.prod_congr rfl fun j _ => ?_
    have hG : ∀ x, 0 < x → Real.Gamma x = Real.exp (gammaln x) := fun x hx =>
      (Real.exp_log (Real.Gamma_pos_of_pos hx)).symm
    rw [Real.exp_add, Real.exp_sub, Real.exp_sum, Real.exp_sum, hG _ (sum_pos_of_pos b hb)]
    rw [Finset.prod_congr rfl fun k _ => hG _ (hb k), Finset.prod_congr rfl fun k _ => Real.rpow_def_of_pos (hp j k) _]
  rw [key a ha, key c hc]
  exact mul_le_mul_of_nonneg_right (Real.exp_le_exp.2 (hmax a ha)) (Real.exp_pos _).le

end

/-- **A `Concentration` with plates**: its term of the lower bound can be stored only if there is one plate; otherwise
`VB.update` raises `ValueError` when it evaluates the bound. -/
theorem C60_concentration_plates_raises {ι P : Type*} [Fintype ι] [Fintype P] (r u : P → Option ι → ℝ) :
    (Fintype.card P = 1 → storeTerm (concentrationContributions r u) = .ok (∑ p, concentrationContribution (r p) (u p))) ∧
    (Fintype.card P ≠ 1 → storeTerm (concentrationContributions r u) = .error .valueError) :=
  ⟨fun h => if_pos h, fun h => if_neg h⟩

theorem computeLowerboundKw_loop (model : List (BoundMethod × ℝ)) (L : ℝ) :
    (model.foldlM (fun L n => do return L + (← n.1.callIgnoreMasked n.2)) L : Except PyErr ℝ)
      = if ∃ n ∈ model, n.1 = .gammaShape ∨ n.1 = .concentration then .error .typeError
        else .ok (L + (model.map Prod.snd).sum) := by
  induction model generalizing L with
  | nil => simp [pure, Except.pure]
  | cons n model ih =>
    obtain ⟨k, v⟩ := n
    rw [List.foldlM_cons]
    by_cases hk : k = .gammaShape ∨ k = .concentration
    · have : BoundMethod.callIgnoreMasked v k = .error .typeError := by rcases hk with rfl | rfl <;> rfl
      rw [if_pos ⟨_, List.mem_cons_self, hk⟩, this]
      rfl
    · have : BoundMethod.callIgnoreMasked v k = .ok v := by
        cases k <;> simp_all [BoundMethod.callIgnoreMasked]
      rw [this]
      refine (ih (L + v)).trans ?_
      simp only [List.mem_cons, exists_eq_or_imp, hk, false_or, List.map_cons, List.sum_cons, add_assoc]

/-- **`VB.compute_lowerbound` with a point estimate raises**: it returns the sum of the terms exactly if the model has no
node of the classes `GammaShape` and `Concentration`, and raises `TypeError` otherwise. -/
theorem C60_compute_lowerbound_raises (model : List (BoundMethod × ℝ)) :
    computeLowerboundKw model
      = if ∃ n ∈ model, n.1 = .gammaShape ∨ n.1 = .concentration then .error .typeError
        else .ok (model.map Prod.snd).sum := by
  have := computeLowerboundKw_loop model 0
  rw [zero_add] at this
  exact this

/-- the model of `demos/gamma_shape.py`: a shape with a gamma child -/
example : computeLowerboundKw [(.gammaShape, 0), (.expFamily, -3)] = .error .typeError := by
  rw [C60_compute_lowerbound_raises, if_pos ⟨_, List.mem_cons_self, Or.inl rfl⟩]

/-- non-vacuity of `C60_concentration_mle`, `C60_concentration_terminates`, `C60_concentration_update`: two different
probability vectors -/
example : ∃ fuel u, concentrationUpdate (fun _ : Unit => 0)
    (fun _ => ∑ j, dirichletMsg (dirichletFixed ((![![1/2, 1/2], ![1/4, 3/4]] : Fin 2 → Fin 2 → ℝ) j))) fuel = some u :=
  (C60_concentration_mle (![![1/2, 1/2], ![1/4, 3/4]] : Fin 2 → Fin 2 → ℝ)
    (by intro j k; fin_cases j <;> fin_cases k <;> norm_num) (by intro j; fin_cases j <;> norm_num [Fin.sum_univ_two]) 0 1
    (fun h => by have := congrFun h 0; norm_num at this)).2

/-- non-vacuity of `C60_concentration_refuted`: the maximiser `(2, 2)` -/
example : ∃ (r m : Option (Fin 2) → ℝ), ∃ fuel u, concentrationUpdate (fun _ : Unit => r) (fun _ => m) fuel = some u ∧
    m ⬝ᵥ u () + concentrationContribution r (u ())
      < m ⬝ᵥ concentrationFixed (fun _ => 2) + concentrationContribution r (concentrationFixed (fun _ => 2)) := by
  refine ⟨0, fun o => o.elim 1 fun _ => digamma 2 - digamma 4, ?_⟩
  have hN : (0 : ℝ) < (fun o : Option (Fin 2) => (o.elim 1 fun _ => digamma 2 - digamma 4 : ℝ)) none
      + (0 : Option (Fin 2) → ℝ) none := by simp
  refine C60_concentration_refuted (ι := Fin 2) 0 _ hN (fun _ => 2) (fun _ => two_pos) ?_ (by norm_num)
  refine (C60_concentration_fixed_point 0 _ hN (fun _ => 2) fun _ => two_pos).1 ?_
  funext k
  simp only [concentrationStep, concentrationMean, Pi.zero_apply, add_zero, Option.elim, div_one, Fin.sum_univ_two]
  norm_num
  exact invpsi_digamma 2 two_pos

end Verif
