import Verif.Model.CategoricalChain
import Verif.Props.MarkovChain
import Verif.Props.Families

/-!
# C20, C22, C23 for the categorical Markov chain
-/

namespace Verif
open Spec

/-! ### finite exponential families -/

/-- Gibbs' inequality for a finite exponential family -/
theorem tangent_finite {ι Z : Type*} [Fintype ι] [Fintype Z] [Nonempty Z] (T : Z → ι → ℝ) (g : (ι → ℝ) → ℝ)
    (u : (ι → ℝ) → ι → ℝ) (phi phi' : ι → ℝ)
    (hg : ∀ phi, g phi = -Real.log (∑ z, Real.exp (phi ⬝ᵥ T z)))
    (hu : ∀ i, u phi i = (∑ z, T z i * Real.exp (phi ⬝ᵥ T z)) / ∑ z, Real.exp (phi ⬝ᵥ T z)) :
    Tangent g u phi phi' := by
  set S := ∑ z, Real.exp (phi ⬝ᵥ T z) with hS
  have hSpos : 0 < S := Finset.sum_pos (fun z _ => Real.exp_pos _) Finset.univ_nonempty
  have hj := convexOn_exp.map_sum_le (t := Finset.univ) (w := fun z => Real.exp (phi ⬝ᵥ T z) / S)
    (p := fun z => (phi' - phi) ⬝ᵥ T z) (fun z _ => (div_pos (Real.exp_pos _) hSpos).le)
    (by rw [← Finset.sum_div, ← hS, div_self hSpos.ne']) (fun z _ => Set.mem_univ _)
  simp only [smul_eq_mul] at hj
  have e1 : ∑ z, Real.exp (phi ⬝ᵥ T z) / S * (phi' - phi) ⬝ᵥ T z = u phi ⬝ᵥ (phi' - phi) := by
    simp only [dotProduct, hu, Finset.mul_sum]
    rw [Finset.sum_comm]
    refine Finset.sum_congr rfl fun i _ => ?_
    rw [Finset.sum_div, Finset.sum_mul]
    refine Finset.sum_congr rfl fun z _ => ?_
    ring
  have e2 : ∑ z, Real.exp (phi ⬝ᵥ T z) / S * Real.exp ((phi' - phi) ⬝ᵥ T z) = (∑ z, Real.exp (phi' ⬝ᵥ T z)) / S := by
    rw [Finset.sum_div]
    refine Finset.sum_congr rfl fun z _ => ?_
    rw [div_mul_eq_mul_div, ← Real.exp_add, sub_dotProduct]
    congr 2
    ring
  rw [e1, e2, le_div_iff₀ hSpos] at hj
  have hl := Real.log_le_log (mul_pos (Real.exp_pos _) hSpos) hj
  rw [Real.log_mul (Real.exp_pos _).ne' hSpos.ne', Real.log_exp] at hl
  unfold Tangent
  rw [hg, hg, ← hS]
  linarith

/-! ### the chain -/

variable {D N : Nat}

theorem cmc_weight (phi : CatChainIx D N → ℝ) (z : Fin (N + 1) → Fin D) :
    pathWeight (potential0 fun i => ((phi (.inl i) : ℝ) : WithBot ℝ)) (potential (cmcTable phi)) N z
      = Real.exp (phi ⬝ᵥ cmcFixed z) := by
  have e : phi ⬝ᵥ cmcFixed z = phi (.inl (z 0)) + ∑ n : Fin N, phi (.inr (n, z n.castSucc, z n.succ)) := by
    rw [dotProduct, Fintype.sum_sum_type]
    congr 1
    · rw [Finset.sum_eq_single (z 0)]
      · simp [cmcFixed]
      · intro b _ hb
        simp [cmcFixed, Ne.symm hb]
      · simp
    · rw [Fintype.sum_prod_type]
      refine Finset.sum_congr rfl fun n _ => ?_
      rw [Finset.sum_eq_single (z n.castSucc, z n.succ)]
      · simp [cmcFixed]
      · rintro ⟨b1, b2⟩ _ hb
        have : ¬(z n.castSucc = b1 ∧ z n.succ = b2) := fun h => hb (by rw [h.1, h.2])
        simp only [cmcFixed, if_neg this, mul_zero]
      · simp
  rw [e, Real.exp_add, Real.exp_sum]
  unfold pathWeight
  congr 1
  refine Finset.prod_congr rfl fun n _ => ?_
  simp [potential, cmcTable, expBot]

theorem cmc_normaliser (phi : CatChainIx D N → ℝ) :
    normaliser (potential0 fun i => ((phi (.inl i) : ℝ) : WithBot ℝ)) (potential (cmcTable phi)) N
      = ∑ z : Fin (N + 1) → Fin D, Real.exp (phi ⬝ᵥ cmcFixed z) :=
  Finset.sum_congr rfl fun z _ => cmc_weight phi z

/-- **C22** For all finite parameters the recursion gives the exact normaliser of the chain. -/
theorem C22_categorical_chain_normaliser (hD : 0 < D) (hN : 0 < N) (phi : CatChainIx D N → ℝ) :
    cmcCgf phi = -Real.log (∑ z : Fin (N + 1) → Fin D, Real.exp (phi ⬝ᵥ cmcFixed z)) := by
  have hne : Nonempty (Fin (N + 1) → Fin D) := ⟨fun _ => ⟨0, hD⟩⟩
  have hpos : 0 < ∑ z : Fin (N + 1) → Fin D, Real.exp (phi ⬝ᵥ cmcFixed z) :=
    Finset.sum_pos (fun z _ => Real.exp_pos _) Finset.univ_nonempty
  obtain ⟨z0, zz, g, h, hg, -⟩ := C27_exact (fun i => ((phi (.inl i) : ℝ) : WithBot ℝ)) (cmcTable phi) N hN
    (by rw [cmc_normaliser]; exact hpos.ne')
  rw [cmc_normaliser] at hg
  unfold cmcCgf cmcRun
  rw [h]
  exact hg

/-- **C22** ... and the exact expectations of the indicators of states and transitions. -/
theorem C22_categorical_chain_moments (hD : 0 < D) (hN : 0 < N) (phi : CatChainIx D N → ℝ) (k : CatChainIx D N) :
    cmcMoments phi k = ∑ z : Fin (N + 1) → Fin D, cmcFixed z k * Real.exp (logpdf (cmcFixed z) phi (cmcCgf phi) 0) := by
  have hne : Nonempty (Fin (N + 1) → Fin D) := ⟨fun _ => ⟨0, hD⟩⟩
  have hpos : 0 < ∑ z : Fin (N + 1) → Fin D, Real.exp (phi ⬝ᵥ cmcFixed z) :=
    Finset.sum_pos (fun z _ => Real.exp_pos _) Finset.univ_nonempty
  have hr : ∑ z : Fin (N + 1) → Fin D, cmcFixed z k * Real.exp (logpdf (cmcFixed z) phi (cmcCgf phi) 0)
      = (∑ z : Fin (N + 1) → Fin D, cmcFixed z k * Real.exp (phi ⬝ᵥ cmcFixed z))
        / ∑ z : Fin (N + 1) → Fin D, Real.exp (phi ⬝ᵥ cmcFixed z) := by
    rw [Finset.sum_div]
    refine Finset.sum_congr rfl fun z _ => ?_
    rw [logpdf_eq, C22_categorical_chain_normaliser hD hN, add_zero, Real.exp_add, Real.exp_neg, Real.exp_log hpos]
    ring
  rw [hr]
  obtain ⟨z0, zz, g, h, -, h0, h1⟩ := C27_exact (fun i => ((phi (.inl i) : ℝ) : WithBot ℝ)) (cmcTable phi) N hN
    (by rw [cmc_normaliser]; exact hpos.ne')
  unfold cmcMoments cmcRun
  rw [h]
  rcases k with i | ⟨n, i, j⟩
  · refine (h0 i).trans ?_
    unfold marginal
    rw [cmc_normaliser]
    congr 1
    refine Finset.sum_congr rfl fun z _ => ?_
    rw [cmc_weight]
    simp [cmcFixed]
  · refine (h1 n i j).trans ?_
    unfold pairMarginal
    rw [cmc_normaliser]
    congr 1
    refine Finset.sum_congr rfl fun z _ => ?_
    rw [cmc_weight]
    simp [cmcFixed]

/-- **C22** The probabilities sum to one. -/
theorem C22_categorical_chain_total (hD : 0 < D) (hN : 0 < N) (phi : CatChainIx D N → ℝ) :
    ∑ z : Fin (N + 1) → Fin D, Real.exp (logpdf (cmcFixed z) phi (cmcCgf phi) 0) = 1 := by
  have hne : Nonempty (Fin (N + 1) → Fin D) := ⟨fun _ => ⟨0, hD⟩⟩
  have hpos : 0 < ∑ z : Fin (N + 1) → Fin D, Real.exp (phi ⬝ᵥ cmcFixed z) :=
    Finset.sum_pos (fun z _ => Real.exp_pos _) Finset.univ_nonempty
  rw [← div_self hpos.ne', Finset.sum_div]
  refine Finset.sum_congr rfl fun z _ => ?_
  rw [logpdf_eq, C22_categorical_chain_normaliser hD hN, add_zero, Real.exp_add, Real.exp_neg, Real.exp_log hpos]
  ring

theorem tangent_categorical_chain (hD : 0 < D) (hN : 0 < N) (phi phi' : CatChainIx D N → ℝ) :
    Tangent cmcCgf cmcMoments phi phi' := by
  have hne : Nonempty (Fin (N + 1) → Fin D) := ⟨fun _ => ⟨0, hD⟩⟩
  have hpos : 0 < ∑ z : Fin (N + 1) → Fin D, Real.exp (phi ⬝ᵥ cmcFixed z) :=
    Finset.sum_pos (fun z _ => Real.exp_pos _) Finset.univ_nonempty
  refine tangent_finite (Z := Fin (N + 1) → Fin D) cmcFixed _ _ _ _ (C22_categorical_chain_normaliser hD hN) fun k => ?_
  rw [C22_categorical_chain_moments hD hN, Finset.sum_div]
  refine Finset.sum_congr rfl fun z _ => ?_
  rw [logpdf_eq, C22_categorical_chain_normaliser hD hN, add_zero, Real.exp_add, Real.exp_neg, Real.exp_log hpos]
  ring

/-- **C21** With the logarithms of probabilities, the density is that of the chain. -/
theorem C21_categorical_chain (p0 : Fin D → ℝ) (P : Fin N → Fin D → Fin D → ℝ) (h0 : ∀ i, 0 < p0 i)
    (hP : ∀ n i j, 0 < P n i j) (z : Fin (N + 1) → Fin D) :
    Real.exp (logpdf (cmcFixed z) (cmcFPhi (fun i => Real.log (p0 i)) fun k => Real.log (P k.1 k.2.1 k.2.2)) 0 0)
      = p0 (z 0) * ∏ n : Fin N, P n (z n.castSucc) (z n.succ) := by
  rw [logpdf_eq, add_zero, add_zero, ← cmc_weight]
  unfold pathWeight
  congr 1
  · exact Real.exp_log (h0 _)
  · refine Finset.prod_congr rfl fun n _ => ?_
    simp only [potential, cmcTable, n.2, dif_pos, cmcFPhi, mul_one]
    exact Real.exp_log (hP _ _ _)

/-- message to the initial probabilities -/
theorem C20_categorical_chain_initial (u : CatChainIx D N → ℝ) (P : Fin N × Fin D × Fin D → ℝ) (f : ℝ) :
    IsCoefficient (fun v => logpdf u (cmcFPhi v P) 0 f) (cmcMsg false u) := by
  refine ⟨(∑ k, P k * u (.inr k)) + f, fun v => ?_⟩
  beta_reduce
  rw [logpdf_eq, dotProduct, Fintype.sum_sum_type, add_zero, add_assoc]
  simp only [cmcFPhi, mul_one]
  rw [← add_assoc, add_assoc]
  refine congrArg₂ _ (Finset.sum_congr rfl fun i _ => mul_comm _ _) rfl

/-- message to the transition probabilities -/
theorem C20_categorical_chain_transition (u : CatChainIx D N → ℝ) (p0 : Fin D → ℝ) (f : ℝ) :
    IsCoefficient (fun v => logpdf u (cmcFPhi p0 v) 0 f) (cmcMsg true u) := by
  refine ⟨(∑ i, p0 i * u (.inl i)) + f, fun v => ?_⟩
  beta_reduce
  rw [logpdf_eq, dotProduct, Fintype.sum_sum_type, add_zero]
  simp only [cmcFPhi, mul_one]
  rw [add_comm (∑ i, p0 i * u (.inl i)), add_assoc]
  refine congrArg₂ _ (Finset.sum_congr rfl fun i _ => mul_comm _ _) rfl

theorem C23_categorical_chain_sound (hD : 0 < D) (hN : 0 < N) : FamilySound (cmcFamily D N) Set.univ where
  conj := fun k u pa f => match k with
    | false => C20_categorical_chain_initial u (pa true) f
    | true => C20_categorical_chain_transition u (pa false) f
  tangent := fun phi _ phi' _ => tangent_categorical_chain hD hN phi phi'

example : FamilySound (cmcFamily 3 5) Set.univ := C23_categorical_chain_sound (by norm_num) (by norm_num)

end Verif
