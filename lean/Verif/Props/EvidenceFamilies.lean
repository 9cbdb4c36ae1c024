import Mathlib.Analysis.SpecialFunctions.Gaussian.GaussianIntegral
import Verif.Props.Evidence
import Verif.Props.Families
import Verif.Props.ExactExpectation
import Verif.Props.GammaExpectation
import Verif.Props.GaussianExact
import Verif.Props.CategoricalChain
import Verif.Model.MixtureFamily

/-!
# C90: the random variables behind the distributions

Every distribution of the library is that of a random variable in the sense of `Spec.Sampled`, on the natural parameters
that its nodes have.
-/

namespace Verif
open Spec MeasureTheory Matrix Set Filter Topology

theorem dotProduct_single_one' {I : Type*} [Fintype I] [DecidableEq I] (v : I → ℝ) (i : I) : v ⬝ᵥ Pi.single i 1 = v i := by
  simp

/-- expectations from the gradient, where the natural parameters may vary freely -/
theorem sampled_gradient {X I : Type*} [MeasurableSpace X] [Fintype I] (vol : Measure X) (T : X → I → ℝ) (f : X → ℝ)
    (hT : ∀ i, Measurable fun x => T x i) (hf : Measurable f) (g : (I → ℝ) → ℝ) (dom : Set (I → ℝ)) (ho : IsOpen dom)
    (hn : ∀ phi ∈ dom, ∫ x, Real.exp (phi ⬝ᵥ T x + g phi + f x) ∂vol = 1) (phi u : I → ℝ) (hp : phi ∈ dom)
    (hg : IsMinusGradient g phi u) (i : I) :
    Integrable (fun x => T x i * Real.exp (phi ⬝ᵥ T x + g phi + f x)) vol
      ∧ ∫ x, T x i * Real.exp (phi ⬝ᵥ T x + g phi + f x) ∂vol = u i := by
  classical
  have h := expectation_of_normalised vol T f hT hf g phi (Pi.single i 1) _ (hg (Pi.single i 1)) (by
    have hc : Continuous fun t : ℝ => phi + t • (Pi.single i 1 : I → ℝ) := by fun_prop
    have hm : ∀ᶠ t : ℝ in 𝓝 0, phi + t • (Pi.single i 1 : I → ℝ) ∈ dom :=
      hc.continuousAt.eventually (ho.mem_nhds (by simpa using hp))
    filter_upwards [hm] with t ht
    simpa only [logpdf_eq] using hn _ ht)
  simpa only [logpdf_eq, dotProduct_single_one'] using h

/-- gamma: volume of the positive reals -/
noncomputable def gammaSampled : Sampled gammaFamily {phi : Fin 2 → ℝ | phi 0 < 0 ∧ 0 < phi 1} := by
  have hT : ∀ i : Fin 2, Measurable fun x => gammaFixed x i := by
    intro i
    fin_cases i
    · exact measurable_id
    · exact Real.measurable_log
  have hf : Measurable gammaF := Real.measurable_log.neg
  have ho : IsOpen {phi : Fin 2 → ℝ | phi 0 < 0 ∧ 0 < phi 1} :=
    (isOpen_lt (continuous_apply 0) continuous_const).inter (isOpen_lt continuous_const (continuous_apply 1))
  have hn : ∀ phi ∈ {phi : Fin 2 → ℝ | phi 0 < 0 ∧ 0 < phi 1},
      ∫ x in Ioi (0 : ℝ), Real.exp (phi ⬝ᵥ gammaFixed x + gammaCgf phi + gammaF x) = 1 := fun phi h => by
    simpa only [logpdf_eq] using C22_gamma_normaliser phi h.1 h.2
  have hm := fun (phi : Fin 2 → ℝ) h => sampled_gradient (volume.restrict (Ioi (0 : ℝ))) gammaFixed gammaF hT hf gammaCgf _ ho hn
    phi (gammaMoments phi) h (C22_gamma_gradient phi h.1 h.2)
  exact
    { X := ℝ
      vol := volume.restrict (Ioi 0)
      T := gammaFixed
      fx := gammaF
      measT := hT
      measF := hf
      norm := hn
      int := fun phi h i => (hm phi h i).1
      mean := fun phi h i => (hm phi h i).2 }

/-- the statistics of a scalar Gaussian variable -/
def ardFixed0 (x : ℝ) : Fin 2 → ℝ := ![x, x * x]

theorem ard0_normaliser (phi : Fin 2 → ℝ) (h : phi 1 < 0) :
    ∫ x : ℝ, Real.exp (phi ⬝ᵥ ardFixed0 x + ardCgf0 phi + ardF 1) = 1 := by
  have e : ∀ x : ℝ, phi ⬝ᵥ ardFixed0 x + ardCgf0 phi + ardF 1
      = -(-phi 1) * (x - -phi 0 / (2 * phi 1)) ^ 2 + (1 / 2 * Real.log (-2 * phi 1) - 1 / 2 * Real.log (2 * Real.pi)) := by
    intro x
    have := h.ne
    simp only [dotProduct, Fin.sum_univ_two, ardFixed0, ardCgf0, ardF, Matrix.cons_val_zero, Matrix.cons_val_one, Nat.cast_one]
    field_simp
    ring
  simp only [e, Real.exp_add]
  rw [integral_mul_const, integral_sub_right_eq_self fun x : ℝ => Real.exp (-(-phi 1) * x ^ 2), integral_gaussian,
    ← mul_sub, ← Real.log_div (by nlinarith) (by positivity)]
  have hp : 0 < -2 * phi 1 / (2 * Real.pi) := div_pos (by linarith) (by positivity)
  have h1 : Real.exp (1 / 2 * Real.log (-2 * phi 1 / (2 * Real.pi))) = √(-2 * phi 1 / (2 * Real.pi)) := by
    rw [Real.sqrt_eq_rpow, Real.rpow_def_of_pos hp, mul_comm]
  rw [h1, ← Real.sqrt_mul (div_nonneg Real.pi_pos.le (by linarith))]
  have : Real.pi / -phi 1 * (-2 * phi 1 / (2 * Real.pi)) = 1 := by
    have := h.ne
    have := Real.pi_ne_zero
    field_simp
  rw [this, Real.sqrt_one]

/-- a scalar `GaussianARD`: volume of the reals -/
noncomputable def ard0Sampled : Sampled ard0Family {phi : Fin 2 → ℝ | phi 1 < 0} := by
  have hT : ∀ i : Fin 2, Measurable fun x => ardFixed0 x i := by
    intro i
    fin_cases i
    · exact measurable_id
    · exact measurable_id.mul measurable_id
  have hf : Measurable fun _ : ℝ => ardF 1 := measurable_const
  have ho : IsOpen {phi : Fin 2 → ℝ | phi 1 < 0} := isOpen_lt (continuous_apply 1) continuous_const
  have hm := fun (phi : Fin 2 → ℝ) h => sampled_gradient volume ardFixed0 (fun _ => ardF 1) hT hf ardCgf0 _ ho ard0_normaliser
    phi (ardMoments0 phi) h (C22_gaussianARD_scalar_gradient phi h)
  exact
    { X := ℝ
      vol := volume
      T := ardFixed0
      fx := fun _ => ardF 1
      measT := hT
      measF := hf
      norm := ard0_normaliser
      int := fun phi h i => (hm phi h i).1
      mean := fun phi h i => (hm phi h i).2 }

/-- Dirichlet: volume of the open simplex, whose points are given by all proportions but the last -/
noncomputable def dirichletSampled (n : ℕ) : Sampled (dirichletFamily (Fin (n + 1))) {phi : Fin (n + 1) → ℝ | ∀ i, 0 < phi i} := by
  have hT : ∀ i : Fin (n + 1), Measurable fun x => dirichletFixed (simplexPoint x) i := measurable_dirichletFixed
  have hf : Measurable fun x : Fin n → ℝ => dirichletF (simplexPoint x) := by
    unfold dirichletF
    exact (Finset.measurable_sum _ fun i _ => hT i).neg
  have ho : IsOpen {phi : Fin (n + 1) → ℝ | ∀ i, 0 < phi i} := by
    simp only [ofPred_forall]
    exact isOpen_iInter_of_finite fun i => isOpen_lt continuous_const (continuous_apply i)
  have hn : ∀ phi ∈ {phi : Fin (n + 1) → ℝ | ∀ i, 0 < phi i}, ∫ x in openSimplex n 1,
      Real.exp (phi ⬝ᵥ dirichletFixed (simplexPoint x) + dirichletCgf phi + dirichletF (simplexPoint x)) = 1 := fun phi h => by
    simpa only [logpdf_eq] using C22_dirichlet_normaliser phi h
  have hm := fun (phi : Fin (n + 1) → ℝ) h => sampled_gradient (volume.restrict (openSimplex n 1))
    (fun x => dirichletFixed (simplexPoint x)) (fun x => dirichletF (simplexPoint x)) hT hf dirichletCgf _ ho hn
    phi (dirichletMoments phi) h (C22_dirichlet_gradient phi h)
  exact
    { X := Fin n → ℝ
      vol := volume.restrict (openSimplex n 1)
      T := fun x => dirichletFixed (simplexPoint x)
      fx := fun x => dirichletF (simplexPoint x)
      measT := hT
      measF := hf
      norm := hn
      int := fun phi h i => (hm phi h i).1
      mean := fun phi h i => (hm phi h i).2 }

/-- Poisson: the natural numbers -/
noncomputable def poissonSampled : Sampled poissonFamily univ := by
  have hn : ∀ phi ∈ (univ : Set (Fin 1 → ℝ)),
      ∫ x, Real.exp (phi ⬝ᵥ poissonFixed x + poissonCgf phi + poissonF x) ∂(Measure.count : Measure ℕ) = 1 := fun phi _ => by
    have h := C22_poisson_normaliser phi
    simp only [logpdf_eq] at h
    rw [integral_countable ((integrable_count_iff).2 h.summable.norm)]
    simpa [Measure.real] using h.tsum_eq
  have hm := fun (phi : Fin 1 → ℝ) => sampled_gradient (Measure.count : Measure ℕ) poissonFixed poissonF (fun _ => measurable_of_countable _)
    (measurable_of_countable _) poissonCgf _ isOpen_univ hn phi (poissonMoments phi) (mem_univ _) (C22_poisson_gradient phi)
  exact
    { X := ℕ
      vol := Measure.count
      T := poissonFixed
      fx := poissonF
      measT := fun _ => measurable_of_countable _
      measF := measurable_of_countable _
      norm := hn
      int := fun phi _ i => (hm phi i).1
      mean := fun phi _ i => (hm phi i).2 }

/-- finitely many values -/
noncomputable def finiteSampled {X : Type} [Fintype X] (F : Family) (dom : Set (F.I → ℝ)) (T : X → F.I → ℝ) (f : X → ℝ)
    (hn : ∀ phi ∈ dom, ∑ x, Real.exp (phi ⬝ᵥ T x + F.cgf phi + f x) = 1)
    (hm : ∀ phi ∈ dom, ∀ i, ∑ x, T x i * Real.exp (phi ⬝ᵥ T x + F.cgf phi + f x) = F.mom phi i) : Sampled F dom :=
  letI : MeasurableSpace X := ⊤
  { X := X
    ms := ⊤
    vol := Measure.count
    T := T
    fx := f
    measT := fun _ => measurable_of_countable _
    measF := measurable_of_countable _
    norm := fun phi h => by rw [integral_countable Integrable.of_finite, tsum_fintype]; simpa [Measure.real] using hn phi h
    int := fun _ _ _ => Integrable.of_finite
    mean := fun phi h i => by rw [integral_countable Integrable.of_finite, tsum_fintype]; simpa [Measure.real] using hm phi h i }

/-- multinomial, of which categorical is `N = 1`: the finitely many vectors of counts with the given total -/
noncomputable def multinomialSampled {ι : Type} [Fintype ι] [DecidableEq ι] [Nonempty ι] (N : ℕ) :
    Sampled (multinomialFamily ι N) univ :=
  finiteSampled (X := {x // x ∈ Finset.piAntidiag (Finset.univ : Finset ι) N}) _ _ (fun x => multinomialFixed x.1)
    (fun x => multinomialF N x.1)
    (fun (phi : ι → ℝ) _ => by
      show ∑ x : {x // x ∈ Finset.piAntidiag (Finset.univ : Finset ι) N},
        Real.exp (phi ⬝ᵥ multinomialFixed x.1 + multinomialCgf N phi + multinomialF N x.1) = 1
      rw [Finset.sum_coe_sort (Finset.piAntidiag (Finset.univ : Finset ι) N)
        fun x => Real.exp (phi ⬝ᵥ multinomialFixed x + multinomialCgf N phi + multinomialF N x)]
      simp only [add_right_comm _ (multinomialCgf N phi), Real.exp_add _ (multinomialCgf N phi)]
      rw [← Finset.sum_mul, C22_multinomial_normaliser, ← Real.exp_add, neg_add_cancel, Real.exp_zero])
    (fun (phi : ι → ℝ) _ (i : ι) => by
      have h := C22_multinomial_expectation N phi i
      simp only [logpdf_eq] at h
      show ∑ x : {x // x ∈ Finset.piAntidiag (Finset.univ : Finset ι) N}, multinomialFixed x.1 i
        * Real.exp (phi ⬝ᵥ multinomialFixed x.1 + multinomialCgf N phi + multinomialF N x.1) = multinomialMoments N phi i
      rw [← h]
      exact Finset.sum_coe_sort (Finset.piAntidiag (Finset.univ : Finset ι) N) fun x =>
        (x i : ℝ) * Real.exp (phi ⬝ᵥ multinomialFixed x + multinomialCgf N phi + multinomialF N x))

/-- binomial, of which Bernoulli is `N = 1`: the counts up to the number of trials -/
noncomputable def binomialSampled (N : ℕ) : Sampled (binomialFamily N) univ :=
  finiteSampled (X := Fin (N + 1)) _ _ (fun x => binomialFixed x) (fun x => binomialF N x)
    (fun (phi : Fin 1 → ℝ) _ => by
      show ∑ x : Fin (N + 1), Real.exp (phi ⬝ᵥ binomialFixed x + binomialCgf N phi + binomialF N x) = 1
      rw [Fin.sum_univ_eq_sum_range fun x => Real.exp (phi ⬝ᵥ binomialFixed x + binomialCgf N phi + binomialF N x)]
      simp only [add_right_comm _ (binomialCgf N phi), Real.exp_add _ (binomialCgf N phi)]
      rw [← Finset.sum_mul, C22_binomial_normaliser, ← Real.exp_add, neg_add_cancel, Real.exp_zero])
    (fun (phi : Fin 1 → ℝ) _ (i : Fin 1) => by
      have h := C22_binomial_expectation N phi
      simp only [logpdf_eq] at h
      obtain rfl : i = (0 : Fin 1) := Subsingleton.elim (α := Fin 1) _ _
      show ∑ x : Fin (N + 1), ((x : ℕ) : ℝ) * Real.exp (phi ⬝ᵥ binomialFixed x + binomialCgf N phi + binomialF N x)
        = binomialMoments N phi 0
      rw [← h]
      exact Fin.sum_univ_eq_sum_range (fun x => (x : ℝ) * Real.exp (phi ⬝ᵥ binomialFixed x + binomialCgf N phi + binomialF N x)) _)

/-- a categorical Markov chain: the finitely many sequences of states -/
noncomputable def chainSampled {D N : ℕ} (hD : 0 < D) (hN : 0 < N) : Sampled (cmcFamily D N) univ :=
  finiteSampled (X := Fin (N + 1) → Fin D) _ _ cmcFixed (fun _ => 0)
    (fun (phi : CatChainIx D N → ℝ) _ => by
      have h := C22_categorical_chain_total hD hN phi
      simp only [logpdf_eq] at h
      exact h)
    (fun (phi : CatChainIx D N → ℝ) _ (i : CatChainIx D N) => by
      have h := C22_categorical_chain_moments hD hN phi i
      simp only [logpdf_eq] at h
      exact h.symm)

/-- The component of a mixture is distributed in its own family; only the parents differ. -/
noncomputable def mixtureSampled {F : Family} {dom : Set (F.I → ℝ)} (R : Sampled F dom) (κ : Type) [Fintype κ] [DecidableEq κ] :
    Sampled (mixtureFamily F κ) dom where
  X := R.X
  vol := R.vol
  T := R.T
  fx := R.fx
  measT := R.measT
  measF := R.measF
  norm := R.norm
  int := R.int
  mean := R.mean

/-! ### vectors and matrices -/

/-- an expectation other than zero is that of an integrable function -/
theorem integrable_of_mean {X : Type*} [MeasurableSpace X] {μ : Measure X} {h : X → ℝ} {c : ℝ} (hc : c ≠ 0) (hi : ∫ x, h x ∂μ = c) :
    Integrable h μ := by
  by_contra hn
  rw [integral_undef hn] at hi
  exact hc hi.symm

section
variable {ι : Type} [Fintype ι] [DecidableEq ι]

omit [Fintype ι] [DecidableEq ι] in
theorem measurable_gaussianFixed (k : GIx ι) : Measurable fun x : ι → ℝ => gaussianFixed x k := by
  rcases k with i | ⟨i, j⟩
  · exact measurable_pi_apply i
  · exact (measurable_pi_apply i).mul (measurable_pi_apply j)

theorem gaussian_integrable (phi : GIx ι → ℝ) (h : ((-2 : ℝ) • g1 phi).PosDef) (k : GIx ι) :
    Integrable fun x : ι → ℝ => gaussianFixed x k
      * Real.exp (logpdf (gaussianFixed x) phi (gaussianCgf phi) (gaussianF (Fintype.card ι))) := by
  set w : (ι → ℝ) → ℝ := fun x => Real.exp (logpdf (gaussianFixed x) phi (gaussianCgf phi) (gaussianF (Fintype.card ι))) with hw
  have w0 : ∀ x, 0 < w x := fun x => Real.exp_pos _
  have mw : Measurable w := by
    simp only [hw, logpdf_eq, dotProduct]
    refine Real.measurable_exp.comp ((Measurable.add_const ?_ _).add_const _)
    exact Finset.measurable_sum _ fun i _ => (measurable_gaussianFixed i).const_mul _
  have i0 : Integrable w := integrable_of_mean one_ne_zero (C22_gaussian_normaliser phi h)
  have i2 : ∀ i, Integrable fun x : ι → ℝ => x i * x i * w x := by
    intro i
    refine integrable_of_mean ?_ (C22_gaussian_expectation phi h (.inr (i, i)))
    have hp := h.inv.diag_pos (i := i)
    show (((-2 : ℝ) • g1 phi)⁻¹ + Matrix.vecMulVec (((-2 : ℝ) • g1 phi)⁻¹.mulVec (g0 phi)) (((-2 : ℝ) • g1 phi)⁻¹.mulVec (g0 phi))) i i ≠ 0
    rw [Matrix.add_apply, Matrix.vecMulVec_apply]
    nlinarith [mul_self_nonneg ((((-2 : ℝ) • g1 phi)⁻¹.mulVec (g0 phi)) i)]
  rcases k with i | ⟨i, j⟩
  · refine (i0.add (i2 i)).mono' ((measurable_gaussianFixed (.inl i)).mul mw).aestronglyMeasurable (ae_of_all _ fun x => ?_)
    show |x i * w x| ≤ w x + x i * x i * w x
    rw [abs_mul, abs_of_pos (w0 x)]
    have : |x i| ≤ 1 + x i * x i := by rw [← abs_mul_abs_self (x i)]; nlinarith [sq_nonneg (|x i| - 1)]
    nlinarith [w0 x]
  · refine ((i2 i).add (i2 j)).mono' ((measurable_gaussianFixed (.inr (i, j))).mul mw).aestronglyMeasurable (ae_of_all _ fun x => ?_)
    show |x i * x j * w x| ≤ x i * x i * w x + x j * x j * w x
    rw [abs_mul, abs_of_pos (w0 x), ← add_mul]
    refine mul_le_mul_of_nonneg_right ?_ (w0 x).le
    rw [abs_le]
    constructor <;> nlinarith [sq_nonneg (x i + x j), sq_nonneg (x i - x j), mul_self_nonneg (x i), mul_self_nonneg (x j)]

/-- Gaussian: volume of the space of vectors -/
noncomputable def gaussianSampled : Sampled (gaussianFamily ι) {phi : GIx ι → ℝ | ((-2 : ℝ) • g1 phi).PosDef} where
  X := ι → ℝ
  vol := volume
  T := gaussianFixed
  fx := fun _ => gaussianF (Fintype.card ι)
  measT := measurable_gaussianFixed
  measF := measurable_const
  norm := fun (phi : GIx ι → ℝ) h => by
    have := C22_gaussian_normaliser phi h
    simp only [logpdf_eq] at this
    exact this
  int := fun (phi : GIx ι → ℝ) h (i : GIx ι) => by
    have := gaussian_integrable phi h i
    simp only [logpdf_eq] at this
    exact this
  mean := fun (phi : GIx ι → ℝ) h (i : GIx ι) => by
    have := C22_gaussian_expectation phi h i
    simp only [logpdf_eq] at this
    exact this

/-- `GaussianARD` with variable axes -/
noncomputable def ardSampled : Sampled (ardFamily ι) {phi : GIx ι → ℝ | ((-2 : ℝ) • g1 phi).PosDef} where
  X := ι → ℝ
  vol := volume
  T := gaussianFixed
  fx := fun _ => gaussianF (Fintype.card ι)
  measT := measurable_gaussianFixed
  measF := measurable_const
  norm := gaussianSampled.norm
  int := gaussianSampled.int
  mean := gaussianSampled.mean

/-- Wishart: volume of the positive definite matrices -/
noncomputable def wishartSampled (un : Fin 2 → ℝ) : Sampled (wishartFamily ι un)
    {phi : WIx ι → ℝ | (-w0 phi).PosDef ∧ ((Fintype.card ι : ℝ) - 1) / 2 < w1 phi} where
  X := Sym2 ι → ℝ
  vol := volume.restrict (posDefCone ι)
  T := fun v => wishartFixed (symMat v)
  fx := fun v => wishartF (symMat v)
  measT := measurable_wishartFixed
  measF := (Real.measurable_log.comp continuous_symMat.matrix_det.measurable).const_mul _
  norm := fun (phi : WIx ι → ℝ) h => by
    have := C22_wishart_normaliser phi h.1 h.2
    simp only [logpdf_eq] at this
    exact this
  int := fun (phi : WIx ι → ℝ) h (i : WIx ι) => by
    have := (wishart_expectation_both phi h.1 h.2 i).1
    simp only [logpdf_eq] at this
    exact this
  mean := fun (phi : WIx ι → ℝ) h (i : WIx ι) => by
    have := C22_wishart_expectation phi h.1 h.2 i
    simp only [logpdf_eq] at this
    exact this

end

section
variable {M D : ℕ}

theorem gmc_integrable (phi : GMCIx M D → ℝ) (h : ((-2 : ℝ) • g1 (gmcFull phi)).PosDef) (k : GMCIx M D) :
    Integrable fun x : Fin (M + 1) × Fin D → ℝ => gmcFixed (chainStates x) k
        * Real.exp (logpdf (gmcFixed (chainStates x)) phi (gmcCgf phi) (gmcF M D)) := by
  simp only [gmc_logpdf_full phi h]
  rcases k with ⟨n, i⟩ | ⟨n, i, j⟩ | ⟨n, i, j⟩
  · exact gaussian_integrable (gmcFull phi) h (.inl (n, i))
  · exact gaussian_integrable (gmcFull phi) h (.inr ((n, i), (n, j)))
  · exact gaussian_integrable (gmcFull phi) h (.inr ((n.castSucc, i), (n.succ, j)))

/-- a Gaussian Markov chain: volume of the space of sequences of states -/
noncomputable def gmcSampled (κ : Type) [Fintype κ] [DecidableEq κ] :
    Sampled (gmcFamily M D κ) {phi : GMCIx M D → ℝ | ((-2 : ℝ) • g1 (gmcFull phi)).PosDef} where
  X := Fin (M + 1) × Fin D → ℝ
  vol := volume
  T := fun x => gmcFixed (chainStates x)
  fx := fun _ => gmcF M D
  measT := fun (k : GMCIx M D) => by
    rcases k with ⟨n, i⟩ | ⟨n, i, j⟩ | ⟨n, i, j⟩
    · exact measurable_pi_apply (n, i)
    · exact (measurable_pi_apply (n, i)).mul (measurable_pi_apply (n, j))
    · exact (measurable_pi_apply (n.castSucc, i)).mul (measurable_pi_apply (n.succ, j))
  measF := measurable_const
  norm := fun (phi : GMCIx M D → ℝ) h => by
    have := C22_gaussian_chain_normaliser phi h
    simp only [logpdf_eq] at this
    exact this
  int := fun (phi : GMCIx M D → ℝ) h (i : GMCIx M D) => by
    have := gmc_integrable phi h i
    simp only [logpdf_eq] at this
    exact this
  mean := fun (phi : GMCIx M D → ℝ) h (i : GMCIx M D) => by
    have := C22_gaussian_chain_expectation phi h i
    simp only [logpdf_eq] at this
    exact this

end

/-! ### Gaussian-gamma -/

section
variable {ι : Type} [Fintype ι] [DecidableEq ι]

omit [Fintype ι] [DecidableEq ι] in
theorem measurable_ggFixed (k : GGIx ι) : Measurable fun z : ℝ × (ι → ℝ) => ggFixed z.2 z.1 k := by
  rcases k with (i | ⟨i, j⟩) | (_ | _)
  · show Measurable fun z : ℝ × (ι → ℝ) => z.1 * z.2 i
    fun_prop
  · show Measurable fun z : ℝ × (ι → ℝ) => z.1 * (z.2 i * z.2 j)
    fun_prop
  · exact measurable_fst
  · exact Real.measurable_log.comp measurable_fst

omit [DecidableEq ι] in
theorem measurable_ggF : Measurable fun z : ℝ × (ι → ℝ) => ggF z.2 z.1 :=
  ((Real.measurable_log.comp measurable_fst).const_mul _).sub_const _

/-- the density of a Gaussian-gamma node -/
noncomputable def ggDensity (phi : GGIx ι → ℝ) (z : ℝ × (ι → ℝ)) : ℝ :=
  Real.exp (logpdf (ggFixed z.2 z.1) phi (ggCgf phi) (ggF z.2 z.1))

theorem measurable_ggDensity (phi : GGIx ι → ℝ) : Measurable (ggDensity phi) := by
  unfold ggDensity
  simp only [logpdf_eq, dotProduct]
  refine Real.measurable_exp.comp ((Measurable.add_const ?_ _).add measurable_ggF)
  exact Finset.measurable_sum _ fun i _ => (measurable_ggFixed i).const_mul _

/-- the functions of both variables whose expectation is finite -/
theorem gg_integrable_of (phi : GGIx ι → ℝ) (h : ((-2 : ℝ) • gg1 phi).PosDef) (c : ℝ → (ι → ℝ) → ℝ)
    (hc : Measurable fun z : ℝ × (ι → ℝ) => c z.1 z.2)
    (hi : ∀ tau, 0 < tau → Integrable fun x => c tau x * Real.exp (logpdf (gaussianFixed x) (gaussianGammaRandomGaussian phi tau)
            (gaussianCgf (gaussianGammaRandomGaussian phi tau)) (gaussianF (Fintype.card ι))))
    (ho : IntegrableOn (fun tau => ∫ x, ‖c tau x * ggDensity phi (tau, x)‖) (Ioi 0)) :
    Integrable (fun z : ℝ × (ι → ℝ) => c z.1 z.2 * ggDensity phi z) ((volume.restrict (Ioi 0)).prod volume) := by
  have hm : AEStronglyMeasurable (fun z : ℝ × (ι → ℝ) => c z.1 z.2 * ggDensity phi z) ((volume.restrict (Ioi 0)).prod volume) :=
    (hc.mul (measurable_ggDensity phi)).aestronglyMeasurable
  rw [integrable_prod_iff hm]
  refine ⟨ae_restrict_of_forall_mem measurableSet_Ioi fun tau ht => ?_, ho⟩
  unfold ggDensity
  simp only [gg_factor phi h _ tau ht]
  exact ((hi tau ht).const_mul (Real.exp (logpdf (gammaFixed tau) (ggMarginal phi) (gammaCgf (ggMarginal phi)) (gammaF tau)))).congr
    (ae_of_all _ fun x => by ring)

theorem gg_integrable (phi : GGIx ι → ℝ) (h : ((-2 : ℝ) • gg1 phi).PosDef) (hb : 0 < ggB phi) (h3 : 0 < gg3 phi) :
    Integrable (ggDensity phi) ((volume.restrict (Ioi 0)).prod volume) ∧
      ∀ k, Integrable (fun z : ℝ × (ι → ℝ) => ggFixed z.2 z.1 k * ggDensity phi z) ((volume.restrict (Ioi 0)).prod volume) := by
  have hm0 : ggMarginal phi 0 < 0 := by show -ggB phi < 0; linarith
  have w0 : ∀ z, 0 < ggDensity phi z := fun z => Real.exp_pos _
  have hq0 : ∀ tau, 0 < tau → Integrable fun x => Real.exp (logpdf (gaussianFixed x) (gaussianGammaRandomGaussian phi tau)
            (gaussianCgf (gaussianGammaRandomGaussian phi tau)) (gaussianF (Fintype.card ι))) := fun tau ht =>
    integrable_of_mean one_ne_zero (C22_gaussian_normaliser _ (gg_conditional phi h tau ht).2.1)
  -- nonnegative functions with an expectation other than zero
  have key : ∀ (c : ℝ → (ι → ℝ) → ℝ) (m : ℝ), Measurable (fun z : ℝ × (ι → ℝ) => c z.1 z.2) → m ≠ 0 →
      (∀ tau, 0 < tau → ∀ x, 0 ≤ c tau x) →
      (∀ tau, 0 < tau → Integrable fun x => c tau x * Real.exp (logpdf (gaussianFixed x) (gaussianGammaRandomGaussian phi tau)
            (gaussianCgf (gaussianGammaRandomGaussian phi tau)) (gaussianF (Fintype.card ι)))) →
      ∫ tau in Ioi (0 : ℝ), ∫ x, c tau x * ggDensity phi (tau, x) = m →
      Integrable (fun z : ℝ × (ι → ℝ) => c z.1 z.2 * ggDensity phi z) ((volume.restrict (Ioi 0)).prod volume) := by
    intro c m hc hm hp hi hv
    refine gg_integrable_of phi h c hc hi (integrable_of_mean hm ?_)
    rw [← hv]
    refine setIntegral_congr_fun measurableSet_Ioi fun tau ht => ?_
    exact integral_congr_ae (ae_of_all _ fun x => Real.norm_of_nonneg (mul_nonneg (hp tau ht x) (w0 _).le))
  have i0 : Integrable (ggDensity phi) ((volume.restrict (Ioi 0)).prod volume) := by
    have := key (fun _ _ => 1) 1 measurable_const one_ne_zero (fun _ _ _ => zero_le_one) (by simpa only [one_mul] using hq0)
      (by simpa only [one_mul, ggDensity] using C22_gaussianGamma_normaliser phi h hb h3)
    simpa only [one_mul] using this
  have i1 : Integrable (fun z : ℝ × (ι → ℝ) => z.1 * ggDensity phi z) ((volume.restrict (Ioi 0)).prod volume) :=
    key (fun tau _ => tau) (gg3 phi / ggB phi) measurable_fst (div_pos h3 hb).ne' (fun _ ht _ => ht.le)
      (fun tau ht => (hq0 tau ht).const_mul tau) (C22_gaussianGamma_expectation phi h hb h3 (.inr (.inl ())))
  have i2 : ∀ i, Integrable (fun z : ℝ × (ι → ℝ) => z.1 * (z.2 i * z.2 i) * ggDensity phi z)
      ((volume.restrict (Ioi 0)).prod volume) := by
    intro i
    refine key (fun tau x => tau * (x i * x i)) (ggMoments phi (.inl (.inr (i, i)))) (by fun_prop) ?_
      (fun _ ht _ => mul_nonneg ht.le (mul_self_nonneg _)) (fun tau ht => ?_) (C22_gaussianGamma_expectation phi h hb h3 (.inl (.inr (i, i))))
    · have hp := h.inv.diag_pos (i := i)
      show ((-2 : ℝ) • gg1 phi)⁻¹ i i + gg3 phi / ggB phi * (ggMu phi i * ggMu phi i) ≠ 0
      nlinarith [mul_nonneg (div_pos h3 hb).le (mul_self_nonneg (ggMu phi i))]
    · have := (gaussian_integrable _ (gg_conditional phi h tau ht).2.1 (.inr (i, i))).const_mul tau
      exact this.congr (ae_of_all _ fun x => (mul_assoc _ _ _).symm)
  refine ⟨i0, fun k => ?_⟩
  have hpos : ∀ᵐ z : ℝ × (ι → ℝ) ∂((volume.restrict (Ioi 0)).prod volume), 0 < z.1 :=
    Measure.quasiMeasurePreserving_fst.ae (ae_restrict_mem measurableSet_Ioi)
  have ms := fun k => ((measurable_ggFixed k).mul (measurable_ggDensity phi)).aestronglyMeasurable
    (μ := ((volume.restrict (Ioi 0)).prod volume : Measure (ℝ × (ι → ℝ))))
  rcases k with (i | ⟨i, j⟩) | (_ | _)
  · refine (i1.add (i2 i)).mono' (ms _) ?_
    filter_upwards [hpos] with z hz
    show |z.1 * z.2 i * ggDensity phi z| ≤ z.1 * ggDensity phi z + z.1 * (z.2 i * z.2 i) * ggDensity phi z
    rw [abs_mul, abs_of_pos (w0 z), ← add_mul, abs_mul, abs_of_pos hz]
    refine mul_le_mul_of_nonneg_right ?_ (w0 z).le
    have : |z.2 i| ≤ 1 + z.2 i * z.2 i := by rw [← abs_mul_abs_self (z.2 i)]; nlinarith [sq_nonneg (|z.2 i| - 1)]
    nlinarith
  · refine ((i2 i).add (i2 j)).mono' (ms _) ?_
    filter_upwards [hpos] with z hz
    show |z.1 * (z.2 i * z.2 j) * ggDensity phi z| ≤ z.1 * (z.2 i * z.2 i) * ggDensity phi z + z.1 * (z.2 j * z.2 j) * ggDensity phi z
    rw [abs_mul, abs_of_pos (w0 z), ← add_mul, abs_mul, abs_of_pos hz]
    refine mul_le_mul_of_nonneg_right ?_ (w0 z).le
    rw [← mul_add]
    refine mul_le_mul_of_nonneg_left ?_ hz.le
    rw [abs_le]
    constructor <;> nlinarith [sq_nonneg (z.2 i + z.2 j), sq_nonneg (z.2 i - z.2 j), mul_self_nonneg (z.2 i), mul_self_nonneg (z.2 j)]
  · exact i1
  · refine gg_integrable_of phi h (fun tau _ => Real.log tau) (Real.measurable_log.comp measurable_fst)
      (fun tau ht => (hq0 tau ht).const_mul _) ?_
    have hg := (gammaSampled.int (ggMarginal phi) ⟨hm0, h3⟩ (1 : Fin 2)).norm
    refine Integrable.congr hg (ae_restrict_of_forall_mem measurableSet_Ioi fun tau ht => ?_)
    have hn := C22_gaussian_normaliser _ (gg_conditional phi h tau ht).2.1
    have e : ∀ x : ι → ℝ, ‖Real.log tau * ggDensity phi (tau, x)‖
        = ‖Real.log tau * Real.exp (logpdf (gammaFixed tau) (ggMarginal phi) (gammaCgf (ggMarginal phi)) (gammaF tau))‖
          * Real.exp (logpdf (gaussianFixed x) (gaussianGammaRandomGaussian phi tau)
            (gaussianCgf (gaussianGammaRandomGaussian phi tau)) (gaussianF (Fintype.card ι))) := by
      intro x
      unfold ggDensity
      rw [gg_factor phi h x tau ht, ← mul_assoc, norm_mul, Real.norm_of_nonneg (Real.exp_pos _).le]
    simp only [e, integral_const_mul]
    rw [hn, mul_one, logpdf_eq]
    rfl

/-- Gaussian-gamma: volume of the positive numbers times that of the vectors -/
noncomputable def gaussianGammaSampled : Sampled (gaussianGammaFamily ι)
    {phi : GGIx ι → ℝ | ((-2 : ℝ) • gg1 phi).PosDef ∧ 0 < ggB phi ∧ 0 < gg3 phi} where
  X := ℝ × (ι → ℝ)
  vol := (volume.restrict (Ioi 0)).prod volume
  T := fun z => ggFixed z.2 z.1
  fx := fun z => ggF z.2 z.1
  measT := measurable_ggFixed
  measF := measurable_ggF
  norm := fun (phi : GGIx ι → ℝ) h => by
    have hi := integral_prod _ (gg_integrable phi h.1 h.2.1 h.2.2).1
    have := hi.trans (C22_gaussianGamma_normaliser phi h.1 h.2.1 h.2.2)
    simp only [ggDensity, logpdf_eq] at this
    exact this
  int := fun (phi : GGIx ι → ℝ) h (i : GGIx ι) => by
    have := (gg_integrable phi h.1 h.2.1 h.2.2).2 i
    simp only [ggDensity, logpdf_eq] at this
    exact this
  mean := fun (phi : GGIx ι → ℝ) h (i : GGIx ι) => by
    have hi := integral_prod _ ((gg_integrable phi h.1 h.2.1 h.2.2).2 i)
    have := hi.trans (C22_gaussianGamma_expectation phi h.1 h.2.1 h.2.2 i)
    simp only [ggDensity, logpdf_eq] at this
    exact this

end

end Verif
