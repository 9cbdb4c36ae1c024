import Verif.Props.Gibbs
import Verif.Props.GaussianMoments
import Verif.Props.Marginals
import Verif.Lemmas.WishartIntegral
import Mathlib.Probability.Moments.MGFAnalytic
import Mathlib.Probability.Distributions.Beta

/-!
# C22: the exact normalisers and expectations of the Dirichlet and the Wishart distribution

If the density that a node computes has integral one for all natural parameters near `phi`, and the moments are minus the gradient of
`g`, then the moments are the expectations of the sufficient statistics.
-/

namespace Verif
open Spec MeasureTheory Matrix ProbabilityTheory Filter Topology

/-- The moments are the expectations of the sufficient statistics under a density that is normalised near `phi`. -/
theorem expectation_of_normalised {Ω I : Type*} [MeasurableSpace Ω] [Fintype I] (μ : Measure Ω) (T : Ω → I → ℝ) (f : Ω → ℝ)
    (hT : ∀ i, Measurable fun x => T x i) (hf : Measurable f) (g : (I → ℝ) → ℝ) (phi d : I → ℝ) (c : ℝ)
    (hg : HasDerivAt (fun t : ℝ => g (phi + t • d)) (-c) 0)
    (hn : ∀ᶠ t : ℝ in 𝓝 0, ∫ x, Real.exp (logpdf (T x) (phi + t • d) (g (phi + t • d)) (f x)) ∂μ = 1) :
    Integrable (fun x => (T x ⬝ᵥ d) * Real.exp (logpdf (T x) phi (g phi) (f x))) μ
      ∧ ∫ x, (T x ⬝ᵥ d) * Real.exp (logpdf (T x) phi (g phi) (f x)) ∂μ = c := by
  set w : Ω → ℝ := fun x => Real.exp (logpdf (T x) phi (g phi) (f x)) with hw
  set X : Ω → ℝ := fun x => T x ⬝ᵥ d with hX
  have mX : Measurable X := by
    simp only [hX, dotProduct]
    exact Finset.measurable_sum _ fun i _ => (hT i).mul_const _
  have mw : Measurable w := by
    simp only [hw, logpdf_eq, dotProduct]
    refine Real.measurable_exp.comp ((Measurable.add_const ?_ _).add hf)
    exact Finset.measurable_sum _ fun i _ => (hT i).const_mul _
  have w0 : ∀ x, 0 < w x := fun x => Real.exp_pos _
  set ν := μ.withDensity fun x => ENNReal.ofReal (w x) with hν
  have tr : ∀ x, (ENNReal.ofReal (w x)).toReal = w x := fun x => ENNReal.toReal_ofReal (w0 x).le
  have ii : ∀ h : Ω → ℝ, Integrable h ν ↔ Integrable (fun x => h x * w x) μ := by
    intro h
    rw [hν, integrable_withDensity_iff_integrable_smul' mw.ennreal_ofReal (ae_of_all _ fun _ => ENNReal.ofReal_lt_top)]
    simp only [tr, smul_eq_mul, mul_comm]
  have iv : ∀ h : Ω → ℝ, ∫ x, h x ∂ν = ∫ x, h x * w x ∂μ := by
    intro h
    rw [hν, integral_withDensity_eq_integral_toReal_smul mw.ennreal_ofReal (ae_of_all _ fun _ => ENNReal.ofReal_lt_top)]
    simp only [tr, smul_eq_mul, mul_comm]
  have e : ∀ (t : ℝ) (x : Ω), Real.exp (t * X x) * w x
      = Real.exp (g phi - g (phi + t • d)) * Real.exp (logpdf (T x) (phi + t • d) (g (phi + t • d)) (f x)) := by
    intro t x
    simp only [hw, hX, logpdf_eq, ← Real.exp_add]
    congr 1
    rw [add_dotProduct, smul_dotProduct, dotProduct_comm d, smul_eq_mul]
    ring
  have int1 : ∀ᶠ t : ℝ in 𝓝 0, Integrable (fun x => Real.exp (t * X x)) ν ∧ mgf X ν t = Real.exp (g phi - g (phi + t • d)) := by
    filter_upwards [hn] with t ht
    constructor
    · rw [ii]
      simp only [e]
      refine Integrable.const_mul ?_ _
      by_contra h
      rw [integral_undef h] at ht
      exact zero_ne_one ht
    · rw [mgf, iv]
      simp only [e]
      rw [integral_const_mul, ht, mul_one]
  have h0 : (0 : ℝ) ∈ interior (integrableExpSet X ν) := by
    rw [mem_interior_iff_mem_nhds]
    filter_upwards [int1] with t ht
    exact ht.1
  have hd := hasDerivAt_mgf h0
  have hd' : HasDerivAt (fun t : ℝ => Real.exp (g phi - g (phi + t • d))) c 0 := by
    have := (hg.const_sub (g phi)).exp
    simpa using this
  have hd2 : HasDerivAt (mgf X ν) c 0 := hd'.congr_of_eventuallyEq (by filter_upwards [int1] with t ht using ht.2)
  have hu := hd.unique hd2
  refine ⟨(ii X).1 (integrable_of_mem_interior_integrableExpSet h0), ?_⟩
  rw [← iv X, ← hu]
  simp

/-! ### Dirichlet -/

theorem lintegral_scale (s : ℝ) (hs : 0 < s) (F : ℝ → ENNReal) (hF : Measurable F) :
    ∫⁻ x, F x = ENNReal.ofReal s * ∫⁻ y, F (s * y) := by
  conv_lhs => rw [← Real.smul_map_volume_mul_left hs.ne']
  rw [lintegral_smul_measure, lintegral_map hF (measurable_const_mul s), abs_of_pos hs, smul_eq_mul]

theorem lintegral_beta (s a b : ℝ) (hs : 0 < s) (ha : 0 < a) (hb : 0 < b) :
    ∫⁻ x in Set.Ioo 0 s, ENNReal.ofReal (x ^ (a - 1) * (s - x) ^ (b - 1))
      = ENNReal.ofReal (s ^ (a + b - 1) * (Real.Gamma a * Real.Gamma b / Real.Gamma (a + b))) := by
  have h := lintegral_betaPDF_eq_one ha hb
  rw [lintegral_betaPDF] at h
  have hB := beta_pos ha hb
  rw [← lintegral_indicator measurableSet_Ioo, lintegral_scale s hs _
    (Measurable.indicator (by fun_prop) measurableSet_Ioo)]
  have e : ∀ y : ℝ, (Set.Ioo 0 s).indicator (fun x => ENNReal.ofReal (x ^ (a - 1) * (s - x) ^ (b - 1))) (s * y)
      = (Set.Ioo (0 : ℝ) 1).indicator (fun y => ENNReal.ofReal (s ^ (a + b - 2) * beta a b)
          * ENNReal.ofReal (1 / beta a b * y ^ (a - 1) * (1 - y) ^ (b - 1))) y := by
    intro y
    by_cases hy : y ∈ Set.Ioo (0 : ℝ) 1
    · have hy' : s * y ∈ Set.Ioo 0 s := ⟨mul_pos hs hy.1, by nlinarith [hy.2]⟩
      rw [Set.indicator_of_mem hy, Set.indicator_of_mem hy', ← ENNReal.ofReal_mul (by positivity)]
      congr 1
      have h1 : s - s * y = s * (1 - y) := by ring
      rw [h1, Real.mul_rpow hs.le hy.1.le, Real.mul_rpow hs.le (sub_pos.2 hy.2).le]
      have h2 : s ^ (a + b - 2) = s ^ (a - 1) * s ^ (b - 1) := by
        rw [← Real.rpow_add hs]; congr 1; ring
      rw [h2]
      field_simp
    · have hy' : s * y ∉ Set.Ioo 0 s := by
        intro hc
        apply hy
        refine ⟨pos_of_mul_pos_right hc.1 hs.le, ?_⟩
        have := hc.2
        by_contra hn
        nlinarith
      rw [Set.indicator_of_notMem hy, Set.indicator_of_notMem hy']
  simp only [e]
  rw [lintegral_indicator measurableSet_Ioo, lintegral_const_mul' _ _ ENNReal.ofReal_ne_top, h, mul_one,
    ← ENNReal.ofReal_mul hs.le]
  congr 1
  have h2 : s ^ (a + b - 1) = s * s ^ (a + b - 2) := by
    nth_rw 2 [← Real.rpow_one s]
    rw [← Real.rpow_add hs]; congr 1; ring
  rw [h2, beta]
  ring

/-- the open simplex of size `s`, without its last coordinate `s - ∑ x` -/
def openSimplex (n : ℕ) (s : ℝ) : Set (Fin n → ℝ) := {x | (∀ i, 0 < x i) ∧ ∑ i, x i < s}

theorem measurableSet_openSimplex (n : ℕ) (s : ℝ) : MeasurableSet (openSimplex n s) := by
  refine MeasurableSet.inter ?_ (measurableSet_lt (f := fun x : Fin n → ℝ => ∑ i, x i) (by fun_prop) measurable_const)
  have : {x : Fin n → ℝ | ∀ i, 0 < x i} = ⋂ i, {x | 0 < x i} := by ext; simp
  change MeasurableSet {x : Fin n → ℝ | ∀ i, 0 < x i}
  rw [this]
  exact MeasurableSet.iInter fun i => measurableSet_lt measurable_const (measurable_pi_apply i)

/-- Dirichlet's integral -/
theorem lintegral_dirichlet (n : ℕ) : ∀ (s : ℝ), 0 < s → ∀ (a : Fin n → ℝ) (b : ℝ), (∀ i, 0 < a i) → 0 < b →
    ∫⁻ x in openSimplex n s, ENNReal.ofReal ((∏ i, x i ^ (a i - 1)) * (s - ∑ i, x i) ^ (b - 1))
      = ENNReal.ofReal (s ^ (∑ i, a i + b - 1) * ((∏ i, Real.Gamma (a i)) * Real.Gamma b / Real.Gamma (∑ i, a i + b))) := by
  induction n with
  | zero =>
    intro s hs a b _ hb
    have hu : openSimplex 0 s = Set.univ := by
      ext x; simp [openSimplex, hs]
    rw [hu, Measure.restrict_univ, lintegral_unique]
    have hv : (volume : Measure (Fin 0 → ℝ)) Set.univ = 1 := by
      rw [volume_pi, Measure.pi_univ]; simp
    rw [hv]
    have := (Real.Gamma_pos_of_pos hb).ne'
    simp [this]
  | succ n ih =>
    intro s hs a b ha hb
    have hA : 0 < ∑ i : Fin n, a i.succ + b := by
      have : 0 ≤ ∑ i : Fin n, a i.succ := Finset.sum_nonneg fun i _ => (ha _).le
      linarith
    rw [← lintegral_indicator (measurableSet_openSimplex _ _)]
    have mp := (volume_preserving_piFinSuccAbove (fun _ : Fin (n + 1) => ℝ) 0).symm
    have mF : Measurable ((openSimplex (n + 1) s).indicator fun x : Fin (n + 1) → ℝ =>
        ENNReal.ofReal ((∏ i, x i ^ (a i - 1)) * (s - ∑ i, x i) ^ (b - 1))) :=
      Measurable.indicator (by fun_prop) (measurableSet_openSimplex _ _)
    rw [← mp.lintegral_comp mF]
    have mF' := mF.comp mp.measurable
    simp only [Function.comp_def] at mF'
    rw [Measure.volume_eq_prod, lintegral_prod _ mF'.aemeasurable]
    have e : ∀ x : ℝ, ∫⁻ y : Fin n → ℝ, (openSimplex (n + 1) s).indicator (fun x : Fin (n + 1) → ℝ =>
          ENNReal.ofReal ((∏ i, x i ^ (a i - 1)) * (s - ∑ i, x i) ^ (b - 1)))
          ((MeasurableEquiv.piFinSuccAbove (fun _ : Fin (n + 1) => ℝ) 0).symm (x, y))
        = (Set.Ioo 0 s).indicator (fun x =>
            ENNReal.ofReal (((∏ i : Fin n, Real.Gamma (a i.succ)) * Real.Gamma b / Real.Gamma (∑ i : Fin n, a i.succ + b)))
            * ENNReal.ofReal (x ^ (a 0 - 1) * (s - x) ^ (∑ i : Fin n, a i.succ + b - 1))) x := by
      intro x
      by_cases hx : x ∈ Set.Ioo 0 s
      · rw [Set.indicator_of_mem hx]
        have e2 : ∀ y : Fin n → ℝ, (openSimplex (n + 1) s).indicator (fun x : Fin (n + 1) → ℝ =>
            ENNReal.ofReal ((∏ i, x i ^ (a i - 1)) * (s - ∑ i, x i) ^ (b - 1)))
            ((MeasurableEquiv.piFinSuccAbove (fun _ : Fin (n + 1) => ℝ) 0).symm (x, y))
            = (openSimplex n (s - x)).indicator (fun y => ENNReal.ofReal (x ^ (a 0 - 1))
              * ENNReal.ofReal ((∏ i : Fin n, y i ^ (a i.succ - 1)) * (s - x - ∑ i, y i) ^ (b - 1))) y := by
          intro y
          have hiff : ((MeasurableEquiv.piFinSuccAbove (fun _ : Fin (n + 1) => ℝ) 0).symm (x, y)) ∈ openSimplex (n + 1) s
              ↔ y ∈ openSimplex n (s - x) := by
            simp only [openSimplex, MeasurableEquiv.piFinSuccAbove_symm_apply, Fin.insertNthEquiv, Equiv.coe_fn_mk,
              Fin.insertNth_zero', Set.mem_setOf_eq, Fin.forall_fin_succ, Fin.cons_zero, Fin.cons_succ, Fin.sum_univ_succ]
            constructor
            · rintro ⟨⟨_, h⟩, h'⟩; exact ⟨h, by linarith⟩
            · rintro ⟨h, h'⟩; exact ⟨⟨hx.1, h⟩, by linarith⟩
          by_cases hy : y ∈ openSimplex n (s - x)
          · rw [Set.indicator_of_mem hy, Set.indicator_of_mem (hiff.2 hy), ← ENNReal.ofReal_mul (Real.rpow_nonneg hx.1.le _)]
            simp only [MeasurableEquiv.piFinSuccAbove_symm_apply, Fin.insertNthEquiv, Equiv.coe_fn_mk,
              Fin.insertNth_zero', Fin.cons_zero, Fin.cons_succ, Fin.sum_univ_succ, Fin.prod_univ_succ]
            rw [sub_sub, mul_assoc]
          · rw [Set.indicator_of_notMem hy, Set.indicator_of_notMem fun h => hy (hiff.1 h)]
        simp only [e2]
        rw [lintegral_indicator (measurableSet_openSimplex _ _), lintegral_const_mul' _ _ ENNReal.ofReal_ne_top,
          ih (s - x) (sub_pos.2 hx.2) (fun i => a i.succ) b (fun i => ha _) hb,
          ← ENNReal.ofReal_mul (Real.rpow_nonneg hx.1.le _), ← ENNReal.ofReal_mul']
        · congr 1; ring
        · exact mul_nonneg (Real.rpow_nonneg hx.1.le _) (Real.rpow_nonneg (sub_pos.2 hx.2).le _)
      · rw [Set.indicator_of_notMem hx]
        refine (lintegral_congr fun y => Set.indicator_of_notMem ?_ _).trans lintegral_zero
        simp only [openSimplex, MeasurableEquiv.piFinSuccAbove_symm_apply, Fin.insertNthEquiv, Equiv.coe_fn_mk,
          Fin.insertNth_zero', Set.mem_setOf_eq, Fin.forall_fin_succ, Fin.cons_zero, Fin.cons_succ, Fin.sum_univ_succ]
        rintro ⟨⟨h0, h⟩, h'⟩
        refine hx ⟨h0, ?_⟩
        have : 0 ≤ ∑ i, y i := Finset.sum_nonneg fun i _ => (h i).le
        linarith
    simp only [e]
    rw [lintegral_indicator measurableSet_Ioo, lintegral_const_mul' _ _ ENNReal.ofReal_ne_top,
      lintegral_beta s (a 0) _ hs (ha 0) hA, ← ENNReal.ofReal_mul]
    · congr 1
      rw [Fin.sum_univ_succ, Fin.prod_univ_succ, ← add_assoc]
      have := (Real.Gamma_pos_of_pos hA).ne'
      field_simp
    · have := Real.Gamma_pos_of_pos hA
      have := Real.Gamma_pos_of_pos hb
      have : 0 ≤ ∏ i : Fin n, Real.Gamma (a i.succ) := Finset.prod_nonneg fun i _ => (Real.Gamma_pos_of_pos (ha _)).le
      positivity

/-- a point of the simplex from its coordinates but the last -/
def simplexPoint {n : ℕ} (x : Fin n → ℝ) : Fin (n + 1) → ℝ := Fin.snoc x (1 - ∑ i, x i)

theorem simplexPoint_sum {n : ℕ} (x : Fin n → ℝ) : ∑ i, simplexPoint x i = 1 := by
  simp [simplexPoint, Fin.sum_univ_castSucc]

theorem simplexPoint_pos {n : ℕ} {x : Fin n → ℝ} (h : x ∈ openSimplex n 1) (i : Fin (n + 1)) : 0 < simplexPoint x i := by
  refine Fin.lastCases ?_ (fun j => ?_) i
  · simpa [simplexPoint] using h.2
  · simpa [simplexPoint] using h.1 j

theorem dirichlet_density {n : ℕ} (phi : Fin (n + 1) → ℝ) (h : ∀ i, 0 < phi i) (x : Fin n → ℝ) (hx : x ∈ openSimplex n 1) :
    Real.exp (logpdf (dirichletFixed (simplexPoint x)) phi (dirichletCgf phi) (dirichletF (simplexPoint x)))
      = (Real.Gamma (∑ i, phi i) / ∏ i, Real.Gamma (phi i))
        * ((∏ i : Fin n, x i ^ (phi i.castSucc - 1)) * (1 - ∑ i, x i) ^ (phi (Fin.last n) - 1)) := by
  have hs : 0 < ∑ i, phi i := Finset.sum_pos (fun i _ => h i) Finset.univ_nonempty
  have e : logpdf (dirichletFixed (simplexPoint x)) phi (dirichletCgf phi) (dirichletF (simplexPoint x))
      = dirichletCgf phi + ∑ i, Real.log (simplexPoint x i) * (phi i - 1) := by
    rw [logpdf_eq, dotProduct, dirichletF]
    simp only [dirichletFixed, simplexPoint_sum, div_one]
    rw [add_right_comm, add_comm _ (dirichletCgf phi), ← sub_eq_add_neg, ← Finset.sum_sub_distrib]
    congr 1
    exact Finset.sum_congr rfl fun i _ => by ring
  rw [e, Real.exp_add, Real.exp_sum]
  congr 1
  · rw [dirichletCgf, Real.exp_sub, Real.exp_sum, gammaln, Real.exp_log (Real.Gamma_pos_of_pos hs)]
    congr 1
    exact Finset.prod_congr rfl fun i _ => by rw [gammaln, Real.exp_log (Real.Gamma_pos_of_pos (h i))]
  · simp only [← Real.rpow_def_of_pos (simplexPoint_pos hx _)]
    rw [Fin.prod_univ_castSucc]
    simp [simplexPoint]

/-- **C22** for a Dirichlet node with any number of categories: the density that the node computes has integral one, with respect to the
first coordinates of the probability vector. -/
theorem C22_dirichlet_normaliser {n : ℕ} (phi : Fin (n + 1) → ℝ) (h : ∀ i, 0 < phi i) :
    ∫ x in openSimplex n 1, Real.exp (logpdf (dirichletFixed (simplexPoint x)) phi (dirichletCgf phi)
      (dirichletF (simplexPoint x))) = 1 := by
  have hs : 0 < ∑ i, phi i := Finset.sum_pos (fun i _ => h i) Finset.univ_nonempty
  have hG := Real.Gamma_pos_of_pos hs
  have hP : 0 < ∏ i, Real.Gamma (phi i) := Finset.prod_pos fun i _ => Real.Gamma_pos_of_pos (h i)
  rw [setIntegral_congr_fun (measurableSet_openSimplex n 1) fun x hx => dirichlet_density phi h x hx, integral_const_mul,
    integral_eq_lintegral_of_nonneg_ae, lintegral_dirichlet n 1 one_pos (fun i => phi i.castSucc) (phi (Fin.last n)) (fun i => h _) (h _)]
  · have hsum : ∑ i : Fin n, phi i.castSucc + phi (Fin.last n) = ∑ i, phi i := (Fin.sum_univ_castSucc _).symm
    have hprod : (∏ i : Fin n, Real.Gamma (phi i.castSucc)) * Real.Gamma (phi (Fin.last n)) = ∏ i, Real.Gamma (phi i) :=
      (Fin.prod_univ_castSucc fun i => Real.Gamma (phi i)).symm
    rw [hsum, hprod, Real.one_rpow, one_mul, ENNReal.toReal_ofReal (by positivity)]
    field_simp
  · refine ae_restrict_of_forall_mem (measurableSet_openSimplex n 1) fun x hx => ?_
    exact mul_nonneg (Finset.prod_nonneg fun i _ => Real.rpow_nonneg (hx.1 i).le _)
      (Real.rpow_nonneg (sub_nonneg.2 hx.2.le) _)
  · exact Measurable.aestronglyMeasurable (by fun_prop)

theorem measurable_simplexPoint {n : ℕ} (i : Fin (n + 1)) : Measurable fun x : Fin n → ℝ => simplexPoint x i := by
  refine Fin.lastCases ?_ (fun j => ?_) i
  · simp only [simplexPoint, Fin.snoc_last]; fun_prop
  · simp only [simplexPoint, Fin.snoc_castSucc]; fun_prop

theorem measurable_dirichletFixed {n : ℕ} (i : Fin (n + 1)) :
    Measurable fun x : Fin n → ℝ => dirichletFixed (simplexPoint x) i := by
  simp only [dirichletFixed, simplexPoint_sum, div_one]
  exact Real.measurable_log.comp (measurable_simplexPoint i)

/-- **C22** for a Dirichlet node: the moments `psi(phi_i) - psi(sum phi)` are the expectations of `log p_i`. -/
theorem C22_dirichlet_expectation {n : ℕ} (phi : Fin (n + 1) → ℝ) (h : ∀ i, 0 < phi i) (i : Fin (n + 1)) :
    ∫ x in openSimplex n 1, dirichletFixed (simplexPoint x) i * Real.exp (logpdf (dirichletFixed (simplexPoint x)) phi
      (dirichletCgf phi) (dirichletF (simplexPoint x))) = dirichletMoments phi i := by
  have hg := C22_dirichlet_gradient phi h (Pi.single i 1)
  have := (expectation_of_normalised (volume.restrict (openSimplex n 1)) (fun x => dirichletFixed (simplexPoint x))
    (fun x => dirichletF (simplexPoint x)) measurable_dirichletFixed
    (by
      simp only [dirichletF]
      exact (Finset.measurable_sum _ fun i _ => measurable_dirichletFixed i).neg)
    dirichletCgf phi (Pi.single i 1) _ hg ?_).2
  · simpa using this
  · filter_upwards [(isOpen_lt continuous_const (continuous_const.add continuous_id) :
      IsOpen {t : ℝ | 0 < phi i + t}).mem_nhds (by simpa using h i)] with t ht
    refine C22_dirichlet_normaliser _ fun j => ?_
    by_cases hj : j = i
    · subst hj; simpa using ht
    · simpa [hj] using h j

example : ∫ x in openSimplex 2 1, dirichletFixed (simplexPoint x) 1 * Real.exp (logpdf (dirichletFixed (simplexPoint x)) ![1, 2, 3]
    (dirichletCgf ![1, 2, 3]) (dirichletF (simplexPoint x))) = digamma 2 - digamma (1 + 2 + 3) := by
  rw [C22_dirichlet_expectation _ (by intro i; fin_cases i <;> norm_num)]
  simp [dirichletMoments, Fin.sum_univ_succ, add_assoc]

/-- **C22** for a Beta node: the moments are the expectations of `log p` and `log (1 - p)`. -/
theorem C22_beta_expectation (phi : Fin 2 → ℝ) (h : ∀ i, 0 < phi i) (i : Fin 2) :
    ∫ p in Set.Ioo (0 : ℝ) 1, dirichletFixed (betaVector p) i * Real.exp (logpdf (dirichletFixed (betaVector p)) phi
      (dirichletCgf phi) (dirichletF (betaVector p))) = dirichletMoments phi i := by
  have eb : ∀ p : ℝ, betaVector p = ![p, 1 - p] := by
    intro p
    funext k
    fin_cases k <;> simp [betaVector]
    ring
  simp only [eb]
  have mT : ∀ k : Fin 2, Measurable fun p : ℝ => dirichletFixed ![p, 1 - p] k := by
    intro k
    simp only [dirichletFixed]
    refine Real.measurable_log.comp ?_
    fin_cases k <;> simp <;> fun_prop
  have := (expectation_of_normalised (volume.restrict (Set.Ioo (0 : ℝ) 1)) (fun p => dirichletFixed ![p, 1 - p])
    (fun p => dirichletF ![p, 1 - p]) mT
    (by
      simp only [dirichletF]
      exact (Finset.measurable_sum _ fun i _ => mT i).neg)
    dirichletCgf phi (Pi.single i 1) _ (C22_dirichlet_gradient phi h (Pi.single i 1)) ?_).2
  · simpa using this
  · filter_upwards [(isOpen_lt continuous_const (continuous_const.add continuous_id) :
      IsOpen {t : ℝ | 0 < phi i + t}).mem_nhds (by simpa using h i)] with t ht
    refine C22_beta_normaliser _ fun j => ?_
    by_cases hj : j = i
    · subst hj; simpa using ht
    · simpa [hj] using h j

/-! ### Wishart -/

section
variable {ι : Type} [Fintype ι] [DecidableEq ι]

theorem exp_multigammaln (a : ℝ) (d : ℕ) (h : ((d : ℝ) - 1) / 2 < a) : Real.exp (multigammaln a d) = multiGamma a d := by
  rw [multigammaln, multiGamma, Real.exp_add, Real.exp_sum, mul_comm _ (Real.log Real.pi), ← Real.rpow_def_of_pos Real.pi_pos]
  congr 1
  refine Finset.prod_congr rfl fun j hj => ?_
  rw [gammaln, Real.exp_log (Real.Gamma_pos_of_pos ?_)]
  have : (j : ℝ) + 1 ≤ d := by exact_mod_cast Finset.mem_range.1 hj
  norm_num
  linarith

theorem wishart_density (phi : WIx ι → ℝ) (h : (-w0 phi).PosDef) (hn : ((Fintype.card ι : ℝ) - 1) / 2 < w1 phi)
    (X : Matrix ι ι ℝ) (hX : X.PosDef) :
    Real.exp (logpdf (wishartFixed X) phi (wishartCgf phi) (wishartF X))
      = ((-w0 phi).det ^ w1 phi / multiGamma (w1 phi) (Fintype.card ι)) * wishartKernel (w1 phi) (-w0 phi) X := by
  have hd := h.det_pos
  have hXd := hX.det_pos
  have e : logpdf (wishartFixed X) phi (wishartCgf phi) (wishartF X)
      = (Real.log (-w0 phi).det * w1 phi - multigammaln (w1 phi) (Fintype.card ι))
        + (Real.log X.det * (w1 phi - ((Fintype.card ι : ℝ) + 1) / 2) + -∑ i, ∑ j, (-w0 phi) i j * X i j) := by
    have hdot : phi ⬝ᵥ wishartFixed X = ∑ i, ∑ j, w0 phi i j * X i j + w1 phi * Real.log X.det := by
      rw [dotProduct, Fintype.sum_sum_type, Fintype.sum_prod_type]
      simp [wishartFixed, mkW, w0, w1]
    rw [logpdf_eq, hdot, wishartCgf, wishartF]
    simp only [Matrix.neg_apply, neg_mul, Finset.sum_neg_distrib]
    ring
  rw [e, Real.exp_add, Real.exp_sub, exp_multigammaln _ _ hn, Real.exp_add, wishartKernel, ← Real.rpow_def_of_pos hd,
    ← Real.rpow_def_of_pos hXd]

/-- **C22** for a Wishart node of any size: the density that the node computes has integral one over the positive definite matrices, with
respect to Lebesgue measure on the entries on and above the diagonal. -/
theorem C22_wishart_normaliser (phi : WIx ι → ℝ) (h : (-w0 phi).PosDef) (hn : ((Fintype.card ι : ℝ) - 1) / 2 < w1 phi) :
    ∫ v in posDefCone ι, Real.exp (logpdf (wishartFixed (symMat v)) phi (wishartCgf phi) (wishartF (symMat v))) = 1 := by
  have hd := h.det_pos
  have hG := multiGamma_pos _ _ hn
  rw [setIntegral_congr_fun measurableSet_posDefCone fun v hv => wishart_density phi h hn (symMat v) hv, integral_const_mul,
    integral_eq_lintegral_of_nonneg_ae, wishartInt ι _ h _ hn, ENNReal.toReal_ofReal (by positivity), Real.rpow_neg hd.le]
  · have : 0 < (-w0 phi).det ^ w1 phi := by positivity
    field_simp
  · refine ae_restrict_of_forall_mem measurableSet_posDefCone fun v hv => ?_
    have : 0 < (symMat v).det := Matrix.PosDef.det_pos hv
    change 0 ≤ wishartKernel _ _ _
    unfold wishartKernel
    positivity
  · refine Measurable.aestronglyMeasurable ?_
    unfold wishartKernel
    refine Measurable.mul ((continuous_symMat.matrix_det.measurable).pow_const _) (Real.measurable_exp.comp (Measurable.neg ?_))
    simp only [symMat, of_apply]
    fun_prop

/-- a positive definite matrix stays positive definite after a small symmetric change -/
theorem posDef_add_smul {P D : Matrix ι ι ℝ} (hP : P.PosDef) (hD : Dᵀ = D) : ∀ᶠ t : ℝ in 𝓝 0, (P + t • D).PosDef := by
  obtain ⟨U, hU, hu⟩ := exists_root hP
  set R : Matrix ι ι ℝ := (U⁻¹)ᵀ * D * U⁻¹ with hR
  have hUi : U⁻¹ * U = 1 := nonsing_inv_mul _ hu
  have hD' : D = Uᵀ * R * U := by
    have h1 : Uᵀ * (U⁻¹)ᵀ = 1 := by rw [← transpose_mul, hUi, transpose_one]
    calc D = 1 * D * 1 := by simp
      _ = (Uᵀ * (U⁻¹)ᵀ) * D * (U⁻¹ * U) := by rw [h1, hUi]
      _ = _ := by rw [hR]; simp only [Matrix.mul_assoc]
  set C : ℝ := ∑ i, ∑ j, |R i j| with hC
  have hC0 : 0 ≤ C := Finset.sum_nonneg fun i _ => Finset.sum_nonneg fun j _ => abs_nonneg _
  have hquad : ∀ y : ι → ℝ, |y ⬝ᵥ R *ᵥ y| ≤ C * (y ⬝ᵥ y) := by
    intro y
    have hy : ∀ i, y i * y i ≤ y ⬝ᵥ y := fun i =>
      Finset.single_le_sum (f := fun i => y i * y i) (fun i _ => mul_self_nonneg _) (Finset.mem_univ i)
    have hyy : ∀ i j, |y i * y j| ≤ y ⬝ᵥ y := by
      intro i j
      rw [abs_le]
      constructor <;> nlinarith [hy i, hy j, mul_self_nonneg (y i + y j), mul_self_nonneg (y i - y j)]
    have e : y ⬝ᵥ R *ᵥ y = ∑ i, ∑ j, y i * (R i j * y j) := by
      simp only [dotProduct, mulVec, Finset.mul_sum]
    rw [e]
    refine (Finset.abs_sum_le_sum_abs _ _).trans ?_
    rw [hC, Finset.sum_mul]
    refine Finset.sum_le_sum fun i _ => (Finset.abs_sum_le_sum_abs _ _).trans ?_
    rw [Finset.sum_mul]
    refine Finset.sum_le_sum fun j _ => ?_
    have := hyy i j
    calc |y i * (R i j * y j)| = |R i j| * |y i * y j| := by rw [← abs_mul]; congr 1; ring
      _ ≤ _ := mul_le_mul_of_nonneg_left this (abs_nonneg _)
  have hev : ∀ᶠ t : ℝ in 𝓝 0, |t| < 1 / (C + 1) := by
    have : IsOpen {t : ℝ | |t| < 1 / (C + 1)} := isOpen_lt continuous_abs continuous_const
    exact this.mem_nhds (by simp; positivity)
  filter_upwards [hev] with t ht
  have htC : |t| * C < 1 := by
    have : |t| * (C + 1) < 1 := by rwa [lt_div_iff₀ (by positivity)] at ht
    nlinarith [abs_nonneg t]
  refine .of_dotProduct_mulVec_pos ?_ fun x hx => ?_
  · have hPs : Pᵀ = P := hP.isHermitian
    change (P + t • D)ᵀ = P + t • D
    rw [transpose_add, transpose_smul, hPs, hD]
  · rw [star_trivial]
    set y := U *ᵥ x with hy
    have e1 : ∀ A : Matrix ι ι ℝ, x ⬝ᵥ (Uᵀ * A * U) *ᵥ x = y ⬝ᵥ A *ᵥ y := by
      intro A
      rw [hy, ← mulVec_mulVec, ← mulVec_mulVec, dotProduct_mulVec, vecMul_transpose]
    have e2 : x ⬝ᵥ P *ᵥ x = y ⬝ᵥ y := by
      have := e1 1
      rwa [Matrix.mul_one, hU, one_mulVec] at this
    have hy0 : 0 < y ⬝ᵥ y := by
      rw [← e2]
      simpa using hP.dotProduct_mulVec_pos hx
    rw [add_mulVec, smul_mulVec, dotProduct_add, dotProduct_smul, e2, hD', e1, smul_eq_mul]
    have h1 := hquad y
    have h2 : |t * (y ⬝ᵥ R *ᵥ y)| ≤ |t| * C * (y ⬝ᵥ y) := by
      rw [abs_mul, mul_assoc]
      exact mul_le_mul_of_nonneg_left h1 (abs_nonneg _)
    have h3 := neg_abs_le (t * (y ⬝ᵥ R *ᵥ y))
    nlinarith

theorem measurable_wishartFixed (k : WIx ι) : Measurable fun v : Sym2 ι → ℝ => wishartFixed (symMat v) k := by
  rcases k with ⟨i, j⟩ | _
  · exact measurable_pi_apply s(i, j)
  · exact Real.measurable_log.comp continuous_symMat.matrix_det.measurable

/-- the expectation in a symmetric direction -/
theorem wishart_expectation_dir (phi : WIx ι → ℝ) (h : (-w0 phi).PosDef) (hn : ((Fintype.card ι : ℝ) - 1) / 2 < w1 phi)
    (d : WIx ι → ℝ) (hd : (w0 d)ᵀ = w0 d) :
    IntegrableOn (fun v => (wishartFixed (symMat v) ⬝ᵥ d) * Real.exp (logpdf (wishartFixed (symMat v)) phi (wishartCgf phi)
        (wishartF (symMat v)))) (posDefCone ι) ∧
      ∫ v in posDefCone ι, (wishartFixed (symMat v) ⬝ᵥ d) * Real.exp (logpdf (wishartFixed (symMat v)) phi (wishartCgf phi)
        (wishartF (symMat v))) = wishartMoments phi ⬝ᵥ d := by
  refine (expectation_of_normalised (volume.restrict (posDefCone ι)) (fun v => wishartFixed (symMat v))
    (fun v => wishartF (symMat v)) measurable_wishartFixed ?_ wishartCgf phi d _ (C22_wishart_gradient phi h hn d) ?_)
  · exact (Real.measurable_log.comp continuous_symMat.matrix_det.measurable).const_mul _
  · have h1 := posDef_add_smul h (D := -w0 d) (by rw [transpose_neg, hd])
    have h2 : ∀ᶠ t : ℝ in 𝓝 0, ((Fintype.card ι : ℝ) - 1) / 2 < w1 phi + t * w1 d := by
      have : IsOpen {t : ℝ | ((Fintype.card ι : ℝ) - 1) / 2 < w1 phi + t * w1 d} := isOpen_lt (by fun_prop) (by fun_prop)
      exact this.mem_nhds (by simpa using hn)
    filter_upwards [h1, h2] with t h1 h2
    refine C22_wishart_normaliser (phi + t • d) ?_ h2
    have e : -w0 (phi + t • d) = -w0 phi + t • -w0 d := by
      ext i j
      simp [w0]
      ring
    rwa [e]

/-- the entries of the matrix and the logarithm of its determinant are integrable, and the moments are their expectations -/
theorem wishart_expectation_both (phi : WIx ι → ℝ) (h : (-w0 phi).PosDef) (hn : ((Fintype.card ι : ℝ) - 1) / 2 < w1 phi) (k : WIx ι) :
    IntegrableOn (fun v => wishartFixed (symMat v) k * Real.exp (logpdf (wishartFixed (symMat v)) phi (wishartCgf phi)
        (wishartF (symMat v)))) (posDefCone ι) ∧
      ∫ v in posDefCone ι, wishartFixed (symMat v) k * Real.exp (logpdf (wishartFixed (symMat v)) phi (wishartCgf phi)
        (wishartF (symMat v))) = wishartMoments phi k := by
  have hsym : ∀ i j, wishartMoments phi (Sum.inl (j, i)) = wishartMoments phi (Sum.inl (i, j)) := by
    intro i j
    have := congrFun (congrFun h.inv.isHermitian i) j
    simp only [conjTranspose_apply, star_trivial] at this
    simp [wishartMoments, mkW, this]
  rcases k with ⟨i, j⟩ | u
  · have hdir := wishart_expectation_dir phi h hn
      (mkW ((1 / 2 : ℝ) • (Matrix.single i j (1 : ℝ) + Matrix.single j i 1)) 0) (by
        change ((1 / 2 : ℝ) • (Matrix.single i j (1 : ℝ) + Matrix.single j i 1))ᵀ = _
        rw [transpose_smul, transpose_add, transpose_single, transpose_single, add_comm]
        rfl)
    have hdot : ∀ m : WIx ι → ℝ, m (Sum.inl (j, i)) = m (Sum.inl (i, j)) →
        m ⬝ᵥ mkW ((1 / 2 : ℝ) • (Matrix.single i j (1 : ℝ) + Matrix.single j i 1)) 0 = m (Sum.inl (i, j)) := by
      intro m hm
      have e : ∀ a b : ι, ∑ x, ∑ y, m (Sum.inl (x, y)) * Matrix.single a b (1 : ℝ) x y = m (Sum.inl (a, b)) := by
        intro a b
        rw [Finset.sum_eq_single a, Finset.sum_eq_single b]
        · simp
        · intro y _ hy
          rw [Matrix.single_apply_of_ne _ _ _ _ _ (by tauto), mul_zero]
        · simp
        · intro x _ hx
          refine Finset.sum_eq_zero fun y _ => ?_
          rw [Matrix.single_apply_of_ne _ _ _ _ _ (by tauto), mul_zero]
        · simp
      rw [dotProduct, Fintype.sum_sum_type, Fintype.sum_prod_type]
      simp only [mkW, Sum.elim_inl, Sum.elim_inr, Matrix.smul_apply, Matrix.add_apply, smul_eq_mul, mul_zero,
        Finset.sum_const_zero, add_zero]
      have e' : ∀ x y, m (Sum.inl (x, y)) * (1 / 2 * (Matrix.single i j (1 : ℝ) x y + Matrix.single j i (1 : ℝ) x y))
          = 1 / 2 * (m (Sum.inl (x, y)) * Matrix.single i j (1 : ℝ) x y + m (Sum.inl (x, y)) * Matrix.single j i (1 : ℝ) x y) := by
        intro x y; ring
      simp only [e', ← Finset.mul_sum, Finset.sum_add_distrib, e, hm]
      ring
    rw [hdot _ (hsym i j)] at hdir
    have hT : ∀ v : Sym2 ι → ℝ, wishartFixed (symMat v) ⬝ᵥ mkW ((1 / 2 : ℝ) • (Matrix.single i j (1 : ℝ) + Matrix.single j i 1)) 0
        = wishartFixed (symMat v) (Sum.inl (i, j)) := by
      intro v
      rw [hdot]
      simp [wishartFixed, mkW, symMat, Sym2.eq_swap]
    simpa only [hT] using hdir
  · have hdir := wishart_expectation_dir phi h hn (mkW 0 1) (by change (0 : Matrix ι ι ℝ)ᵀ = 0; simp)
    have hdot : ∀ m : WIx ι → ℝ, m ⬝ᵥ mkW 0 1 = m (Sum.inr u) := by
      intro m
      rw [dotProduct, Fintype.sum_sum_type]
      simp [mkW]
    simpa only [hdot] using hdir

/-- **C22** for a Wishart node: the moments `n V⁻¹` and `multidigamma n - logdet V` are the expectations of the matrix and of the
logarithm of its determinant. -/
theorem C22_wishart_expectation (phi : WIx ι → ℝ) (h : (-w0 phi).PosDef) (hn : ((Fintype.card ι : ℝ) - 1) / 2 < w1 phi) (k : WIx ι) :
    ∫ v in posDefCone ι, wishartFixed (symMat v) k * Real.exp (logpdf (wishartFixed (symMat v)) phi (wishartCgf phi)
      (wishartF (symMat v))) = wishartMoments phi k :=
  (wishart_expectation_both phi h hn k).2

end

/-- a two by two Wishart node with seven degrees of freedom: the expectation of an entry on the diagonal is the degrees of freedom, and
that of an entry off the diagonal zero -/
example (i j : Fin 2) : ∫ v in posDefCone (Fin 2), v s(i, j)
    * Real.exp (logpdf (wishartFixed (symMat v)) (mkW ((-0.5 : ℝ) • (1 : Matrix (Fin 2) (Fin 2) ℝ)) (0.5 * 7))
      (wishartCgf (mkW ((-0.5 : ℝ) • (1 : Matrix (Fin 2) (Fin 2) ℝ)) (0.5 * 7))) (wishartF (symMat v)))
    = if i = j then 7 else 0 := by
  have e : -w0 (mkW ((-0.5 : ℝ) • (1 : Matrix (Fin 2) (Fin 2) ℝ)) (0.5 * 7)) = (0.5 : ℝ) • 1 := by
    change -((-0.5 : ℝ) • (1 : Matrix (Fin 2) (Fin 2) ℝ)) = _
    rw [← neg_smul]; norm_num
  have := C22_wishart_expectation (mkW ((-0.5 : ℝ) • (1 : Matrix (Fin 2) (Fin 2) ℝ)) (0.5 * 7))
    (by rw [e]; exact PosDef.one.smul (by norm_num)) (by change _ < (0.5 * 7 : ℝ); norm_num) (Sum.inl (i, j))
  refine this.trans ?_
  have hi : ((0.5 : ℝ) • (1 : Matrix (Fin 2) (Fin 2) ℝ))⁻¹ = (2 : ℝ) • 1 := by
    apply inv_eq_right_inv
    rw [smul_mul_smul_comm]; norm_num
  change ((0.5 * 7 : ℝ) • (-w0 (mkW ((-0.5 : ℝ) • (1 : Matrix (Fin 2) (Fin 2) ℝ)) (0.5 * 7)))⁻¹) i j = _
  rw [e, hi]
  simp only [Matrix.smul_apply, Matrix.one_apply, smul_eq_mul]
  split <;> norm_num

end Verif
