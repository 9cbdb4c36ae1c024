import Verif.Model.Families
import Verif.Props.LowerBound

/-!
# C23: the distributions satisfy what the theorems about networks ask of a family
-/

namespace Verif
open Spec

theorem C23_gamma_sound : FamilySound gammaFamily {phi : Fin 2 → ℝ | phi 0 < 0 ∧ 0 < phi 1} where
  conj := by
    intro k u pa f
    change Fin 2 at k
    fin_cases k
    · exact C20_gamma_shape u (pa (1 : Fin 2)) f
    · exact C20_gamma_rate u (pa (0 : Fin 2)) f
  tangent := fun phi h phi' h' => tangent_gamma phi phi' h.1 h.2 h'.1 h'.2

theorem C23_poisson_sound : FamilySound poissonFamily Set.univ where
  conj := fun _ u _ f => C20_poisson u f
  tangent := fun phi _ phi' _ => tangent_poisson phi phi'

theorem C23_binomial_sound (n : ℕ) : FamilySound (binomialFamily n) Set.univ where
  conj := fun _ u _ f => C20_binomial n u f
  tangent := fun phi _ phi' _ => tangent_binomial n phi phi'

section
variable (ι : Type) [Fintype ι] [DecidableEq ι]

omit [DecidableEq ι] in
theorem C23_dirichlet_sound [Nonempty ι] : FamilySound (dirichletFamily ι) {phi | ∀ i : ι, 0 < phi i} where
  conj := fun _ u _ f => C20_dirichlet u f
  tangent := fun phi h phi' h' => tangent_dirichlet (ι := ι) phi phi' h h'

omit [DecidableEq ι] in
theorem C23_multinomial_sound [Nonempty ι] (n : ℕ) : FamilySound (multinomialFamily ι n) Set.univ where
  conj := fun _ u _ f => C20_multinomial u f
  tangent := fun phi _ phi' _ => tangent_multinomial (ι := ι) n phi phi'

theorem C23_gaussian_sound :
    FamilySound (gaussianFamily ι) {phi : GIx ι → ℝ | ((-2 : ℝ) • g1 phi).PosDef} where
  conj := fun _ u _ f => C20_gaussian u f
  tangent := fun phi h phi' h' => tangent_gaussian (ι := ι) phi phi' h h'

theorem C23_gaussianARD_sound :
    FamilySound (ardFamily ι) {phi : GIx ι → ℝ | ((-2 : ℝ) • g1 phi).PosDef} where
  conj := fun _ u _ f => C20_gaussianARD u f
  tangent := fun phi h phi' h' => tangent_gaussian (ι := ι) phi phi' h h'

theorem C23_gaussianGamma_sound : FamilySound (gaussianGammaFamily ι)
    {phi : GGIx ι → ℝ | ((-2 : ℝ) • gg1 phi).PosDef ∧ 0 < ggB phi ∧ 0 < gg3 phi} where
  conj := by
    intro k u pa f
    change Option (Fin 2) at k
    match k with
    | none => exact C20_gaussianGamma_mean u (pa (some 0)) (pa (some 1)) f
    | some 0 => exact C20_gaussianGamma_shape u (pa none) (pa (some 1)) f
    | some 1 => exact C20_gaussianGamma_rate u (pa none) (pa (some 0)) f
  tangent := fun phi h phi' h' => tangent_gaussianGamma (ι := ι) phi phi' h.1 h.2.1 h.2.2 h'.1 h'.2.1 h'.2.2

theorem C23_wishart_sound (un : Fin 2 → ℝ) : FamilySound (wishartFamily ι un)
    {phi : WIx ι → ℝ | (-w0 phi).PosDef ∧ ((Fintype.card ι : ℝ) - 1) / 2 < w1 phi} where
  conj := fun _ u _ f => C20_wishart_scale u un f
  tangent := fun phi h phi' h' => tangent_wishart (ι := ι) phi phi' h.1 h.2 h'.1 h'.2

end

/-- GaussianARD without variable axes, message to the mean and precision -/
theorem C20_gaussianARD_scalar (u : Fin 2 → ℝ) (f : ℝ) :
    IsCoefficient (fun v => logpdf u (ard0Phi v) (ard0CgfP v) f) (ard0Msg u) := by
  refine ⟨f, fun v => ?_⟩
  simp only [logpdf_eq, dotProduct, Fin.sum_univ_two, Fin.sum_univ_four, ard0Phi, ard0CgfP, ard0Msg, Matrix.cons_val]
  ring

theorem tangent_gaussianARD_scalar (phi phi' : Fin 2 → ℝ) (h : phi 1 < 0) (h' : phi' 1 < 0) :
    Tangent ardCgf0 ardMoments0 phi phi' := by
  have hr : 0 < phi' 1 / phi 1 := div_pos_of_neg_of_neg h' h
  have hl := Real.log_le_sub_one_of_pos hr
  have hq : 0 ≤ (phi 0 / phi 1 - phi' 0 / phi' 1) ^ 2 := sq_nonneg _
  have e : Real.log (phi' 1 / phi 1) = Real.log (-2 * phi' 1) - Real.log (-2 * phi 1) := by
    rw [← Real.log_div (by nlinarith) (by nlinarith)]
    congr 1
    field_simp
  rw [e] at hl
  unfold Tangent
  simp only [ardCgf0, ardMoments0, dotProduct, Fin.sum_univ_two, Matrix.cons_val_zero, Matrix.cons_val_one,
    Matrix.cons_val_fin_one, Pi.sub_apply]
  have key : -0.5 * (-phi 0 / (2 * phi 1)) * phi 0 + 0.5 * Real.log (-2 * phi 1)
      - (-phi 0 / (2 * phi 1) * (phi' 0 - phi 0)
        + ((-phi 0 / (2 * phi 1)) ^ 2 - 1 / (2 * phi 1)) * (phi' 1 - phi 1))
      - (-0.5 * (-phi' 0 / (2 * phi' 1)) * phi' 0 + 0.5 * Real.log (-2 * phi' 1))
      = -(phi' 1) / 4 * (phi 0 / phi 1 - phi' 0 / phi' 1) ^ 2
        + 0.5 * (phi' 1 / phi 1 - 1 - (Real.log (-2 * phi' 1) - Real.log (-2 * phi 1))) := by
    have := h.ne
    have := h'.ne
    field_simp
    ring
  have h1 : 0 ≤ -(phi' 1) / 4 * (phi 0 / phi 1 - phi' 0 / phi' 1) ^ 2 := mul_nonneg (by linarith) hq
  linarith

theorem C23_gaussianARD_scalar_sound : FamilySound ard0Family {phi : Fin 2 → ℝ | phi 1 < 0} where
  conj := fun _ u _ f => C20_gaussianARD_scalar u f
  tangent := fun phi h phi' h' => tangent_gaussianARD_scalar phi phi' h h'

end Verif
