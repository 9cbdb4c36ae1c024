import Verif.Model.VaryingChain
import Verif.Props.GaussianChainMoments

/-!
# C20, C21, C23 for the Gaussian Markov chains with varying and switching dynamics
-/

namespace Verif
open Spec Matrix

section
variable {M D : Nat} {κ : Type} [Fintype κ]

/-- The expected log-density is the sum of those of the first state and of the transitions. -/
theorem dyn_logpdf (u : GMCIx M D → ℝ) (mu : GIx (Fin D) → ℝ) (L : WIx (Fin D) → ℝ) (v logv : Fin D → ℝ)
    (BvB vB : Fin M → Fin D → Fin D → ℝ) (f : ℝ) :
    logpdf u (dynPhi mu L v BvB vB) (dynCgf M mu L logv) f
      = ((∑ i, (∑ k, w0 L i k * g0 mu k) * c0 u 0 i) - 0.5 * (∑ i, ∑ j, w0 L i j * c1 u 0 i j)
          - 0.5 * (∑ i, ∑ j, w0 L i j * g1 mu i j) + 0.5 * w1 L)
        + (∑ m : Fin M, (-0.5 * (∑ i, v i * c1 u m.succ i i) - 0.5 * (∑ i, ∑ j, BvB m i j * c1 u m.castSucc i j)
          + (∑ i, ∑ j, vB m j i * c2 u m i j) + 0.5 * ∑ d, logv d))
        + f := by
  rw [logpdf_eq, c_dot]
  have h0 : ∑ n, ∑ i, c0 (dynPhi mu L v BvB vB) n i * c0 u n i = ∑ i, (∑ k, w0 L i k * g0 mu k) * c0 u 0 i := by
    change ∑ n, ∑ i, (Fin.cases (motive := fun _ => ℝ) (∑ k, w0 L i k * g0 mu k) (fun _ => 0) n) * c0 u n i = _
    rw [Fin.sum_univ_succ]
    simp
  have h1 : ∑ n, ∑ i, ∑ j, c1 (dynPhi mu L v BvB vB) n i j * c1 u n i j = -0.5 * (∑ i, ∑ j, w0 L i j * c1 u 0 i j)
      + (∑ m : Fin M, -0.5 * ∑ i, v i * c1 u m.succ i i)
      + ∑ m : Fin M, -0.5 * ∑ i, ∑ j, BvB m i j * c1 u m.castSucc i j := by
    change ∑ n, ∑ i, ∑ j, (-0.5 * (Fin.cases (motive := fun _ => ℝ) (w0 L i j)
        (fun _ => if i = j then v i else 0) n
      + Fin.lastCases (motive := fun _ => ℝ) 0 (fun m => BvB m i j) n)) * c1 u n i j = _
    simp only [mul_add, add_mul, Finset.sum_add_distrib]
    congr 1
    · rw [Fin.sum_univ_succ]
      simp only [Fin.cases_zero, Fin.cases_succ, Finset.mul_sum, mul_assoc, ite_mul, zero_mul, Finset.sum_ite_eq,
        Finset.mem_univ, if_true, mul_ite, mul_zero]
    · rw [Fin.sum_univ_castSucc]
      simp only [Fin.lastCases_castSucc, Fin.lastCases_last, zero_mul, Finset.sum_const_zero, add_zero, Finset.mul_sum,
        mul_assoc, mul_zero]
  have h2 : ∑ n, ∑ i, ∑ j, c2 (dynPhi mu L v BvB vB) n i j * c2 u n i j = ∑ m, ∑ i, ∑ j, vB m j i * c2 u m i j := rfl
  rw [h0, h1, h2, dynCgf]
  simp only [Finset.sum_add_distrib, Finset.sum_sub_distrib, ← Finset.mul_sum]
  rw [Finset.sum_const, Finset.card_univ, Fintype.card_fin, nsmul_eq_mul]
  ring

/-- **C20** Both chains: the expected log-density is linear in the moments of the initial mean, with this coefficient,
although the code has no message to it. -/
theorem C20_dyn_mean (u : GMCIx M D → ℝ) (L : WIx (Fin D) → ℝ) (v logv : Fin D → ℝ) (BvB vB : Fin M → Fin D → Fin D → ℝ)
    (f : ℝ) : IsCoefficient (fun mu => logpdf u (dynPhi mu L v BvB vB) (dynCgf M mu L logv) f)
      (mkG (fun k => ∑ i, w0 L i k * c0 u 0 i) (of fun i j => -0.5 * w0 L i j)) := by
  refine ⟨logpdf u (dynPhi 0 L v BvB vB) (dynCgf M 0 L logv) f, fun mu => ?_⟩
  beta_reduce
  rw [dyn_logpdf, dyn_logpdf]
  have z0 : ∀ i, g0 (0 : GIx (Fin D) → ℝ) i = 0 := fun _ => rfl
  have z1 : ∀ i j, g1 (0 : GIx (Fin D) → ℝ) i j = 0 := fun _ _ => rfl
  have e : mkG (fun k => ∑ i, w0 L i k * c0 u 0 i) (of fun i j => -0.5 * w0 L i j) ⬝ᵥ mu
      = (∑ i, (∑ k, w0 L i k * g0 mu k) * c0 u 0 i) - 0.5 * ∑ i, ∑ j, w0 L i j * g1 mu i j := by
    simp only [mkG, dotProduct, Fintype.sum_sum_type, Fintype.sum_prod_type, Sum.elim_inl, Sum.elim_inr, Matrix.of_apply]
    rw [sub_eq_add_neg]
    congr 1
    · simp only [Finset.sum_mul]
      rw [Finset.sum_comm]
      exact Finset.sum_congr rfl fun i _ => Finset.sum_congr rfl fun k _ => by rw [g0]; ring
    · rw [← neg_mul, Finset.mul_sum]
      refine Finset.sum_congr rfl fun i _ => ?_
      rw [Finset.mul_sum]
      exact Finset.sum_congr rfl fun j _ => mul_assoc _ _ _
  rw [e]
  simp only [z0, z1, mul_zero, zero_mul, Finset.sum_const_zero]
  ring

/-- **C20** Both chains: the same for the initial precision. -/
theorem C20_dyn_precision (u : GMCIx M D → ℝ) (mu : GIx (Fin D) → ℝ) (v logv : Fin D → ℝ)
    (BvB vB : Fin M → Fin D → Fin D → ℝ) (f : ℝ) :
    IsCoefficient (fun L => logpdf u (dynPhi mu L v BvB vB) (dynCgf M mu L logv) f)
      (mkW (of fun i j => c0 u 0 i * g0 mu j - 0.5 * c1 u 0 i j - 0.5 * g1 mu i j) 0.5) := by
  refine ⟨logpdf u (dynPhi mu 0 v BvB vB) (dynCgf M mu 0 logv) f, fun L => ?_⟩
  beta_reduce
  rw [dyn_logpdf, dyn_logpdf]
  have z0 : ∀ i j, w0 (0 : WIx (Fin D) → ℝ) i j = 0 := fun _ _ => rfl
  have z1 : w1 (0 : WIx (Fin D) → ℝ) = 0 := rfl
  have e : mkW (of fun i j => c0 u 0 i * g0 mu j - 0.5 * c1 u 0 i j - 0.5 * g1 mu i j) 0.5 ⬝ᵥ L
      = (∑ i, (∑ k, w0 L i k * g0 mu k) * c0 u 0 i) - 0.5 * (∑ i, ∑ j, w0 L i j * c1 u 0 i j)
          - 0.5 * (∑ i, ∑ j, w0 L i j * g1 mu i j) + 0.5 * w1 L := by
    simp only [mkW, dotProduct, Fintype.sum_sum_type, Fintype.sum_prod_type, Sum.elim_inl, Sum.elim_inr, Matrix.of_apply,
      Finset.univ_unique, Finset.sum_singleton, sub_mul, Finset.sum_sub_distrib, Finset.mul_sum, Finset.sum_mul]
    refine congrArg₂ _ (congrArg₂ _ (congrArg₂ _ ?_ ?_) ?_) rfl
    · exact Finset.sum_congr rfl fun i _ => Finset.sum_congr rfl fun j _ => by rw [w0]; ring
    · exact Finset.sum_congr rfl fun i _ => Finset.sum_congr rfl fun j _ => by rw [w0]; ring
    · exact Finset.sum_congr rfl fun i _ => Finset.sum_congr rfl fun j _ => by rw [w0]; ring
  rw [e]
  simp only [z0, z1, mul_zero, zero_mul, Finset.sum_const_zero]
  ring

theorem vary_dot (m b : VaryIx D κ → ℝ) : m ⬝ᵥ b = (∑ d, ∑ i, ∑ k, vb0 m d i k * vb0 b d i k)
    + ∑ d, ∑ i, ∑ k, ∑ j, ∑ l, vb1 m d i k j l * vb1 b d i k j l := by
  simp only [dotProduct, Fintype.sum_sum_type, Fintype.sum_prod_type, vb0, vb1]

theorem switch_dot (m b : SwitchIx D κ → ℝ) : m ⬝ᵥ b = (∑ k, ∑ d, ∑ i, sb0 m k d i * sb0 b k d i)
    + ∑ k, ∑ d, ∑ i, ∑ j, sb1 m k d i j * sb1 b k d i j := by
  simp only [dotProduct, Fintype.sum_sum_type, Fintype.sum_prod_type, sb0, sb1]

/-! ### C20 -/

/-- what depends on the dynamics and their weights -/
theorem vary_pairB (v : Fin D → ℝ) (u : GMCIx M D → ℝ) (b : VaryIx D κ → ℝ) (s : InpIx M κ → ℝ) :
    (∑ m : Fin M, (-0.5 * (∑ i, ∑ j, (∑ k, ∑ l, (∑ d, vb1 b d i k j l * v d) * i1 s m k l) * c1 u m.castSucc i j)
      + ∑ i, ∑ j, (∑ k, vb0 b j i k * i0 s m k * v j) * c2 u m i j)) = varyMsgB v u s ⬝ᵥ b := by
  rw [vary_dot, Finset.sum_add_distrib, add_comm]
  congr 1
  · have e : ∀ d i k, vb0 (varyMsgB v u s) d i k = ∑ n, c2 u n i d * i0 s n k * v d := fun _ _ _ => rfl
    simp only [e, Finset.sum_mul]
    rw [Finset.sum_congr rfl fun m _ => Finset.sum_comm]
    rw [Finset.sum_comm]
    refine Finset.sum_congr rfl fun d _ => ?_
    rw [Finset.sum_comm]
    refine Finset.sum_congr rfl fun i _ => ?_
    rw [Finset.sum_comm]
    exact Finset.sum_congr rfl fun k _ => Finset.sum_congr rfl fun m _ => by ring
  · have e : ∀ d i k j l, vb1 (varyMsgB v u s) d i k j l
        = -0.5 * ((∑ n : Fin M, c1 u n.castSucc i j * i1 s n k l) * v d) := fun _ _ _ _ _ => rfl
    simp only [e, Finset.sum_mul, Finset.mul_sum]
    -- left: m i j k l d; right: d i k j l m
    calc ∑ m : Fin M, ∑ i, ∑ j, ∑ k, ∑ l, ∑ d, -0.5 * (vb1 b d i k j l * v d * i1 s m k l * c1 u m.castSucc i j)
        = ∑ i, ∑ m : Fin M, ∑ k, ∑ j, ∑ l, ∑ d, -0.5 * (vb1 b d i k j l * v d * i1 s m k l * c1 u m.castSucc i j) := by
          rw [Finset.sum_comm]
          exact Finset.sum_congr rfl fun i _ => Finset.sum_congr rfl fun m _ => Finset.sum_comm
      _ = ∑ i, ∑ k, ∑ j, ∑ l, ∑ d, ∑ m : Fin M, -0.5 * (vb1 b d i k j l * v d * i1 s m k l * c1 u m.castSucc i j) := by
          refine Finset.sum_congr rfl fun i _ => ?_
          rw [Finset.sum_comm]
          refine Finset.sum_congr rfl fun k _ => ?_
          rw [Finset.sum_comm]
          refine Finset.sum_congr rfl fun j _ => ?_
          rw [Finset.sum_comm]
          refine Finset.sum_congr rfl fun l _ => ?_
          rw [Finset.sum_comm]
      _ = ∑ d, ∑ i, ∑ k, ∑ j, ∑ l, ∑ m : Fin M, -0.5 * (vb1 b d i k j l * v d * i1 s m k l * c1 u m.castSucc i j) := by
          symm
          refine Finset.sum_comm.trans (Finset.sum_congr rfl fun i _ => ?_)
          refine Finset.sum_comm.trans (Finset.sum_congr rfl fun k _ => ?_)
          refine Finset.sum_comm.trans (Finset.sum_congr rfl fun j _ => ?_)
          exact Finset.sum_comm
      _ = _ := by
          refine Finset.sum_congr rfl fun d _ => Finset.sum_congr rfl fun i _ => Finset.sum_congr rfl fun k _ =>
            Finset.sum_congr rfl fun j _ => Finset.sum_congr rfl fun l _ => Finset.sum_congr rfl fun m _ => by ring

theorem vary_pairS (v : Fin D → ℝ) (u : GMCIx M D → ℝ) (b : VaryIx D κ → ℝ) (s : InpIx M κ → ℝ) :
    (∑ m : Fin M, (-0.5 * (∑ i, ∑ j, (∑ k, ∑ l, (∑ d, vb1 b d i k j l * v d) * i1 s m k l) * c1 u m.castSucc i j)
      + ∑ i, ∑ j, (∑ k, vb0 b j i k * i0 s m k * v j) * c2 u m i j)) = varyMsgS v u b ⬝ᵥ s := by
  rw [inp_dot, Finset.sum_add_distrib, add_comm]
  congr 1
  · refine Finset.sum_congr rfl fun m _ => ?_
    have e : ∀ k, i0 (varyMsgS v u b) m k = ∑ i, ∑ j, c2 u m j i * vb0 b i j k * v i := fun _ => rfl
    simp only [e, Finset.sum_mul]
    rw [Finset.sum_comm]
    symm
    rw [Finset.sum_comm]
    refine Finset.sum_congr rfl fun i _ => ?_
    rw [Finset.sum_comm]
    exact Finset.sum_congr rfl fun j _ => Finset.sum_congr rfl fun k _ => by ring
  · refine Finset.sum_congr rfl fun m _ => ?_
    have e : ∀ k l, i1 (varyMsgS v u b) m k l
        = -0.5 * ∑ i, ∑ j, c1 u m.castSucc i j * ∑ d, vb1 b d i k j l * v d := fun _ _ => rfl
    have e2 : ∀ k l, i1 (varyMsgS v u b) m k l * i1 s m k l
        = ∑ i, ∑ j, -0.5 * ((∑ d, vb1 b d i k j l * v d) * i1 s m k l * c1 u m.castSucc i j) := by
      intro k l
      rw [e, Finset.mul_sum, Finset.sum_mul]
      refine Finset.sum_congr rfl fun i _ => ?_
      rw [Finset.mul_sum, Finset.sum_mul]
      exact Finset.sum_congr rfl fun j _ => by ring
    simp only [e2]
    rw [Finset.mul_sum]
    symm
    refine (Finset.sum_congr rfl fun k _ => Finset.sum_comm).trans (Finset.sum_comm.trans ?_)
    refine Finset.sum_congr rfl fun i _ => ?_
    rw [Finset.mul_sum]
    refine (Finset.sum_congr rfl fun k _ => Finset.sum_comm).trans (Finset.sum_comm.trans ?_)
    refine Finset.sum_congr rfl fun j _ => ?_
    rw [Finset.sum_mul, Finset.mul_sum]
    refine Finset.sum_congr rfl fun k _ => ?_
    rw [Finset.sum_mul, Finset.mul_sum]

theorem vary_logpdf (u : GMCIx M D → ℝ) (mu : GIx (Fin D) → ℝ) (L : WIx (Fin D) → ℝ) (v logv : Fin D → ℝ)
    (b : VaryIx D κ → ℝ) (s : InpIx M κ → ℝ) (f : ℝ) :
    logpdf u (varyPhi mu L v b s) (dynCgf M mu L logv) f
      = (∑ m : Fin M, (-0.5 * (∑ i, ∑ j, (∑ k, ∑ l, (∑ d, vb1 b d i k j l * v d) * i1 s m k l) * c1 u m.castSucc i j)
          + ∑ i, ∑ j, (∑ k, vb0 b j i k * i0 s m k * v j) * c2 u m i j))
        + logpdf u (dynPhi mu L v 0 0) (dynCgf M mu L logv) f := by
  rw [varyPhi, dyn_logpdf, dyn_logpdf]
  simp only [Pi.zero_apply, zero_mul, Finset.sum_const_zero, Finset.sum_add_distrib, Finset.sum_sub_distrib, mul_zero]
  simp only [neg_mul, Finset.sum_neg_distrib]
  ring

/-- **C20** the message to the dynamics of a chain with varying dynamics -/
theorem C20_varying_chain_dynamics (u : GMCIx M D → ℝ) (mu : GIx (Fin D) → ℝ) (L : WIx (Fin D) → ℝ) (v logv : Fin D → ℝ)
    (s : InpIx M κ → ℝ) (f : ℝ) :
    IsCoefficient (fun b => logpdf u (varyPhi mu L v b s) (dynCgf M mu L logv) f) (varyMsgB v u s) :=
  ⟨logpdf u (dynPhi mu L v 0 0) (dynCgf M mu L logv) f, fun b => by
    beta_reduce
    rw [vary_logpdf, vary_pairB]⟩

/-- **C20** the message to the weights of the dynamics -/
theorem C20_varying_chain_weights (u : GMCIx M D → ℝ) (mu : GIx (Fin D) → ℝ) (L : WIx (Fin D) → ℝ) (v logv : Fin D → ℝ)
    (b : VaryIx D κ → ℝ) (f : ℝ) :
    IsCoefficient (fun s => logpdf u (varyPhi mu L v b s) (dynCgf M mu L logv) f) (varyMsgS v u b) :=
  ⟨logpdf u (dynPhi mu L v 0 0) (dynCgf M mu L logv) f, fun s => by
    beta_reduce
    rw [vary_logpdf, vary_pairS]⟩

theorem switch_logpdf (u : GMCIx M D → ℝ) (mu : GIx (Fin D) → ℝ) (L : WIx (Fin D) → ℝ) (v logv : Fin D → ℝ)
    (b : SwitchIx D κ → ℝ) (z : Fin M × κ → ℝ) (f : ℝ) :
    logpdf u (switchPhi mu L v b z) (dynCgf M mu L logv) f
      = (∑ m : Fin M, (-0.5 * (∑ i, ∑ j, (∑ k, (∑ d, sb1 b k d i j * v d) * z (m, k)) * c1 u m.castSucc i j)
          + ∑ i, ∑ j, (∑ k, sb0 b k j i * z (m, k) * v j) * c2 u m i j))
        + logpdf u (dynPhi mu L v 0 0) (dynCgf M mu L logv) f := by
  rw [switchPhi, dyn_logpdf, dyn_logpdf]
  simp only [Pi.zero_apply, zero_mul, Finset.sum_const_zero, Finset.sum_add_distrib, Finset.sum_sub_distrib, mul_zero]
  simp only [neg_mul, Finset.sum_neg_distrib]
  ring

theorem switch_pairB (v : Fin D → ℝ) (u : GMCIx M D → ℝ) (b : SwitchIx D κ → ℝ) (z : Fin M × κ → ℝ) :
    (∑ m : Fin M, (-0.5 * (∑ i, ∑ j, (∑ k, (∑ d, sb1 b k d i j * v d) * z (m, k)) * c1 u m.castSucc i j)
      + ∑ i, ∑ j, (∑ k, sb0 b k j i * z (m, k) * v j) * c2 u m i j)) = switchMsgB v u z ⬝ᵥ b := by
  rw [switch_dot, Finset.sum_add_distrib, add_comm]
  congr 1
  · have e : ∀ k d i, sb0 (switchMsgB v u z) k d i = ∑ n, c2 u n i d * z (n, k) * v d := fun _ _ _ => rfl
    simp only [e, Finset.sum_mul]
    calc ∑ m : Fin M, ∑ i, ∑ j, ∑ k, sb0 b k j i * z (m, k) * v j * c2 u m i j
        = ∑ m : Fin M, ∑ k, ∑ j, ∑ i, sb0 b k j i * z (m, k) * v j * c2 u m i j := by
          refine Finset.sum_congr rfl fun m _ => ?_
          rw [Finset.sum_congr rfl fun i _ => Finset.sum_comm, Finset.sum_comm]
          exact Finset.sum_congr rfl fun k _ => Finset.sum_comm
      _ = _ := by
          rw [Finset.sum_comm]
          refine Finset.sum_congr rfl fun k _ => ?_
          rw [Finset.sum_comm]
          refine Finset.sum_congr rfl fun j _ => ?_
          rw [Finset.sum_comm]
          exact Finset.sum_congr rfl fun i _ => Finset.sum_congr rfl fun m _ => by ring
  · have e : ∀ k d i j, sb1 (switchMsgB v u z) k d i j
        = -0.5 * ((∑ n : Fin M, c1 u n.castSucc i j * z (n, k)) * v d) := fun _ _ _ _ => rfl
    simp only [e, Finset.sum_mul, Finset.mul_sum]
    calc ∑ m : Fin M, ∑ i, ∑ j, ∑ k, ∑ d, -0.5 * (sb1 b k d i j * v d * z (m, k) * c1 u m.castSucc i j)
        = ∑ m : Fin M, ∑ k, ∑ i, ∑ j, ∑ d, -0.5 * (sb1 b k d i j * v d * z (m, k) * c1 u m.castSucc i j) := by
          refine Finset.sum_congr rfl fun m _ => ?_
          rw [Finset.sum_congr rfl fun i _ => Finset.sum_comm, Finset.sum_comm]
      _ = ∑ k, ∑ i, ∑ j, ∑ d, ∑ m : Fin M, -0.5 * (sb1 b k d i j * v d * z (m, k) * c1 u m.castSucc i j) := by
          rw [Finset.sum_comm]
          refine Finset.sum_congr rfl fun k _ => ?_
          rw [Finset.sum_comm]
          refine Finset.sum_congr rfl fun i _ => ?_
          rw [Finset.sum_comm]
          refine Finset.sum_congr rfl fun j _ => ?_
          rw [Finset.sum_comm]
      _ = _ := by
          refine Finset.sum_congr rfl fun k _ => ?_
          rw [Finset.sum_congr rfl fun i _ => Finset.sum_comm, Finset.sum_comm]
          exact Finset.sum_congr rfl fun d _ => Finset.sum_congr rfl fun i _ => Finset.sum_congr rfl fun j _ =>
            Finset.sum_congr rfl fun m _ => by ring

/-- **C20** the message to the dynamics of a chain with switching dynamics -/
theorem C20_switching_chain_dynamics (u : GMCIx M D → ℝ) (mu : GIx (Fin D) → ℝ) (L : WIx (Fin D) → ℝ)
    (v logv : Fin D → ℝ) (z : Fin M × κ → ℝ) (f : ℝ) :
    IsCoefficient (fun b => logpdf u (switchPhi mu L v b z) (dynCgf M mu L logv) f) (switchMsgB v u z) :=
  ⟨logpdf u (dynPhi mu L v 0 0) (dynCgf M mu L logv) f, fun b => by
    beta_reduce
    rw [switch_logpdf, switch_pairB]⟩

theorem switch_pairZ (v logv : Fin D → ℝ) (u : GMCIx M D → ℝ) (b : SwitchIx D κ → ℝ) (z : Fin M × κ → ℝ) :
    (∑ m : Fin M, (-0.5 * (∑ i, ∑ j, (∑ k, (∑ d, sb1 b k d i j * v d) * z (m, k)) * c1 u m.castSucc i j)
        + ∑ i, ∑ j, (∑ k, sb0 b k j i * z (m, k) * v j) * c2 u m i j))
      + ∑ m : Fin M, (-0.5 * (∑ i, c1 u m.succ i i * v i) + 0.5 * (∑ d, logv d) - 0.5 * D * Real.log (2 * Real.pi))
        * ∑ k, z (m, k)
      = switchMsgZ v logv u b ⬝ᵥ z := by
  simp only [dotProduct, Fintype.sum_prod_type, switchMsgZ]
  rw [← Finset.sum_add_distrib]
  refine Finset.sum_congr rfl fun m _ => ?_
  have e1 : ∑ i, ∑ j, (∑ k, (∑ d, sb1 b k d i j * v d) * z (m, k)) * c1 u m.castSucc i j
      = ∑ k, (∑ i, ∑ j, c1 u m.castSucc i j * ∑ d, sb1 b k d i j * v d) * z (m, k) := by
    simp only [Finset.sum_mul (s := (Finset.univ : Finset κ))]
    rw [Finset.sum_congr rfl fun i _ => Finset.sum_comm, Finset.sum_comm]
    refine Finset.sum_congr rfl fun k _ => ?_
    rw [Finset.sum_mul]
    refine Finset.sum_congr rfl fun i _ => ?_
    rw [Finset.sum_mul]
    exact Finset.sum_congr rfl fun j _ => by ring
  have e2 : ∑ i, ∑ j, (∑ k, sb0 b k j i * z (m, k) * v j) * c2 u m i j
      = ∑ k, (∑ i, ∑ l, c2 u m i l * v l * sb0 b k l i) * z (m, k) := by
    simp only [Finset.sum_mul]
    rw [Finset.sum_congr rfl fun i _ => Finset.sum_comm, Finset.sum_comm]
    exact Finset.sum_congr rfl fun k _ => Finset.sum_congr rfl fun i _ => Finset.sum_congr rfl fun j _ => by ring
  rw [e1, e2, Finset.mul_sum, Finset.mul_sum, ← Finset.sum_add_distrib, ← Finset.sum_add_distrib]
  exact Finset.sum_congr rfl fun k _ => by ring

/-- **C20** the message to the classes: it is the coefficient for all moments of categorical variables, which sum to one. -/
theorem C20_switching_chain_classes (u : GMCIx M D → ℝ) (mu : GIx (Fin D) → ℝ) (L : WIx (Fin D) → ℝ) (v logv : Fin D → ℝ)
    (b : SwitchIx D κ → ℝ) (f : ℝ) :
    ∃ r, ∀ z : Fin M × κ → ℝ, (∀ m, ∑ k, z (m, k) = 1) →
      logpdf u (switchPhi mu L v b z) (dynCgf M mu L logv) f = switchMsgZ v logv u b ⬝ᵥ z + r := by
  refine ⟨logpdf u (dynPhi mu L v 0 0) (dynCgf M mu L logv) f
    - ∑ m : Fin M, (-0.5 * (∑ i, c1 u m.succ i i * v i) + 0.5 * (∑ d, logv d) - 0.5 * D * Real.log (2 * Real.pi)),
    fun z hz => ?_⟩
  have h := switch_pairZ v logv u b z
  simp only [hz, mul_one] at h
  rw [switch_logpdf, ← h]
  ring

/-! ### C21 -/

/-- The parameters are those of the chain with the dynamics `W` and without inputs. -/
theorem dynPhi_gmc (mu : Fin D → ℝ) (L : Matrix (Fin D) (Fin D) ℝ) (W : Fin M → Matrix (Fin D) (Fin D) ℝ) (nu : Fin D → ℝ) :
    dynPhi (gaussianFixed mu) (wishartFixed L) nu (fun m i j => ∑ d, W m d i * W m d j * nu d) (fun m j i => W m j i * nu j)
      = gmcPhi (κ := Empty) (wrapGW (toGaussianGamma (gaussianFixed mu)) (wishartFixed L))
        (dynFixed (fun m d => Sum.elim (W m d) Empty.elim) fun _ => nu) (inpFixed fun _ => Empty.elim) := by
  funext p
  rcases p with ⟨n, i⟩ | ⟨n, i, j⟩ | ⟨n, i, j⟩
  · change Fin.cases (motive := fun _ => ℝ) _ (fun _ => 0) n = Fin.cases (motive := fun _ => ℝ) _ _ n
      - Fin.lastCases (motive := fun _ => ℝ) 0 _ n
    have e : (Fin.lastCases (motive := fun _ => ℝ) 0 (fun m : Fin M => ∑ k : Empty, (∑ d,
        d1 (dynFixed (fun m d => Sum.elim (W m d) Empty.elim) fun _ => nu) m d (.inl i) (.inr k))
          * i0 (inpFixed fun (_ : Fin M) => Empty.elim) m k) n) = 0 := by
      refine Fin.lastCases ?_ (fun m => ?_) n
      · simp
      · simp
    rw [e, sub_zero]
    refine Fin.cases ?_ (fun m => ?_) n
    · rfl
    · simp
  · change -0.5 * (Fin.cases (motive := fun _ => ℝ) _ _ n + Fin.lastCases (motive := fun _ => ℝ) 0 _ n)
      = Fin.cases (motive := fun _ => ℝ) _ _ n + Fin.lastCases (motive := fun _ => ℝ) 0 _ n
    rw [mul_add]
    congr 1
    · refine Fin.cases ?_ (fun m => ?_) n
      · change -0.5 * L i j = -0.5 * (1 * L i j)
        ring
      · rfl
    · refine Fin.lastCases ?_ (fun m => ?_) n
      · simp
      · simp only [Fin.lastCases_castSucc]
        refine congrArg _ (Finset.sum_congr rfl fun d _ => ?_)
        change _ = nu d * (W m d i * W m d j)
        ring
  · change W n j i * nu j = nu j * W n j i
    ring

theorem dynCgf_gmc (mu : Fin D → ℝ) (L : Matrix (Fin D) (Fin D) ℝ) (W : Fin M → Matrix (Fin D) (Fin D) ℝ) (nu : Fin D → ℝ) :
    dynCgf M (gaussianFixed mu) (wishartFixed L) (fun d => Real.log (nu d))
      = gmcCgfP (κ := Empty) (wrapGW (toGaussianGamma (gaussianFixed mu)) (wishartFixed L))
        (dynFixed (fun m d => Sum.elim (W m d) Empty.elim) fun _ => nu) (inpFixed fun _ => Empty.elim) := by
  rw [gmcCgfP]
  have e1 : gw1 (wrapGW (toGaussianGamma (gaussianFixed mu)) (wishartFixed L))
      = ∑ i, ∑ j, w0 (wishartFixed L) i j * g1 (gaussianFixed mu) i j := rfl
  have e3 : gw3 (wrapGW (toGaussianGamma (gaussianFixed mu)) (wishartFixed L))
      = w1 (wishartFixed L) + (Fintype.card (Fin D) : ℝ) * 0 := rfl
  have e4 : ∀ m d, d3 (dynFixed (κ := Empty) (fun m d => Sum.elim (W m d) Empty.elim) fun _ => nu) m d = Real.log (nu d) :=
    fun _ _ => rfl
  simp only [e1, e3, e4, Finset.univ_eq_empty, Finset.sum_empty, mul_zero, Finset.sum_const_zero, add_zero,
    Finset.sum_const, Finset.card_univ, Fintype.card_fin, nsmul_eq_mul, dynCgf]
  ring

theorem dyn_pdf (mu : Fin D → ℝ) (L : Matrix (Fin D) (Fin D) ℝ) (hL : L.PosDef) (W : Fin M → Matrix (Fin D) (Fin D) ℝ)
    (nu : Fin D → ℝ) (hnu : ∀ d, 0 < nu d) (x : Fin (M + 1) → Fin D → ℝ) :
    logpdf (gmcFixed x) (dynPhi (gaussianFixed mu) (wishartFixed L) nu (fun m i j => ∑ d, W m d i * W m d j * nu d)
        (fun m j i => W m j i * nu j))
        (dynCgf M (gaussianFixed mu) (wishartFixed L) fun d => Real.log (nu d)) (gmcF M D)
      = Real.log (gaussianChainPdf (κ := Empty) mu L W (fun _ => 0) (fun _ => nu) (fun _ => 0) x) := by
  rw [dynPhi_gmc, dynCgf_gmc _ _ W, C21_gaussian_chain mu L hL _ (fun _ => nu) (fun _ => hnu)]
  have e : ∀ m, (of fun d k => Sum.elim (W m d) Empty.elim (.inr k) : Matrix (Fin D) Empty ℝ) = 0 := by
    intro m
    ext d k
    exact k.elim
  have e' : ∀ m : Fin M, (Empty.elim : Empty → ℝ) = 0 := fun _ => funext fun k => k.elim
  simp only [e]
  rfl

/-- **C21** With fixed parents, the log-density is that of the chain whose dynamics are the weighted sums of the matrices. -/
theorem C21_varying_chain (mu : Fin D → ℝ) (L : Matrix (Fin D) (Fin D) ℝ) (hL : L.PosDef) (B : Fin D → Fin D → κ → ℝ)
    (s : Fin M → κ → ℝ) (nu : Fin D → ℝ) (hnu : ∀ d, 0 < nu d) (x : Fin (M + 1) → Fin D → ℝ) :
    logpdf (gmcFixed x) (varyPhi (gaussianFixed mu) (wishartFixed L) nu (varyFixed B) (inpFixed s))
        (dynCgf M (gaussianFixed mu) (wishartFixed L) fun d => Real.log (nu d)) (gmcF M D)
      = Real.log (gaussianChainPdf (κ := Empty) mu L (fun m => of fun d i => ∑ k, s m k * B d i k) (fun _ => 0)
        (fun _ => nu) (fun _ => 0) x) := by
  rw [← dyn_pdf mu L hL _ nu hnu, varyPhi]
  have e1 : (fun m i j => ∑ k, ∑ l, (∑ d, vb1 (varyFixed B) d i k j l * nu d) * i1 (inpFixed s) m k l)
      = fun (m : Fin M) i j => ∑ d, (of fun d i => ∑ k, s m k * B d i k : Matrix (Fin D) (Fin D) ℝ) d i
        * (of fun d i => ∑ k, s m k * B d i k : Matrix (Fin D) (Fin D) ℝ) d j * nu d := by
    funext m i j
    have e : ∀ k l, (∑ d, vb1 (varyFixed B) d i k j l * nu d) * i1 (inpFixed s) m k l
        = ∑ d, s m k * B d i k * (s m l * B d j l) * nu d := by
      intro k l
      rw [Finset.sum_mul]
      refine Finset.sum_congr rfl fun d _ => ?_
      change B d i k * B d j l * nu d * (s m k * s m l) = _
      ring
    simp only [e, Matrix.of_apply]
    have e' : ∀ d, (∑ k, s m k * B d i k) * (∑ k, s m k * B d j k) * nu d
        = ∑ k, ∑ l, s m k * B d i k * (s m l * B d j l) * nu d := by
      intro d
      rw [Finset.sum_mul_sum, Finset.sum_mul]
      exact Finset.sum_congr rfl fun k _ => Finset.sum_mul _ _ _
    simp only [e']
    rw [Finset.sum_congr rfl fun k _ => Finset.sum_comm, Finset.sum_comm]
  have e2 : (fun m j i => ∑ k, vb0 (varyFixed B) j i k * i0 (inpFixed s) m k * nu j)
      = fun (m : Fin M) j i => (of fun d i => ∑ k, s m k * B d i k : Matrix (Fin D) (Fin D) ℝ) j i * nu j := by
    funext m j i
    simp only [Matrix.of_apply, Finset.sum_mul]
    refine Finset.sum_congr rfl fun k _ => ?_
    change B j i k * s m k * nu j = _
    ring
  rw [e1, e2]

/-- **C21** With fixed parents, the log-density is that of the chain whose dynamics are the selected matrices. -/
theorem C21_switching_chain [DecidableEq κ] (mu : Fin D → ℝ) (L : Matrix (Fin D) (Fin D) ℝ) (hL : L.PosDef)
    (B : κ → Fin D → Fin D → ℝ) (z : Fin M → κ) (nu : Fin D → ℝ) (hnu : ∀ d, 0 < nu d) (x : Fin (M + 1) → Fin D → ℝ) :
    logpdf (gmcFixed x) (switchPhi (gaussianFixed mu) (wishartFixed L) nu (switchFixed B)
        fun p => if z p.1 = p.2 then 1 else 0)
        (dynCgf M (gaussianFixed mu) (wishartFixed L) fun d => Real.log (nu d)) (gmcF M D)
      = Real.log (gaussianChainPdf (κ := Empty) mu L (fun m => of (B (z m))) (fun _ => 0) (fun _ => nu) (fun _ => 0) x) := by
  rw [← dyn_pdf mu L hL _ nu hnu, switchPhi]
  simp only [mul_ite, mul_one, mul_zero, ite_mul, zero_mul, Finset.sum_ite_eq, Finset.mem_univ, if_true]
  rfl

/-! ### C23 -/

/-- the parents of both chains that have messages -/
def VarySlot (M D : Nat) (κ : Type) : Fin 2 → Type
  | 0 => VaryIx D κ
  | 1 => InpIx M κ

instance : ∀ k, Fintype (VarySlot M D κ k)
  | 0 => inferInstanceAs (Fintype (VaryIx D κ))
  | 1 => inferInstanceAs (Fintype (InpIx M κ))

/-- `VaryingGaussianMarkovChainDistribution` with constant distributions of the initial state and the noise -/
noncomputable def varyFamily (M D : Nat) (κ : Type) [Fintype κ] (mu : GIx (Fin D) → ℝ) (L : WIx (Fin D) → ℝ)
    (v logv : Fin D → ℝ) : Family where
  I := GMCIx M D
  K := Fin 2
  P := VarySlot M D κ
  phiP := fun pa => varyPhi mu L v (pa 0 : VaryIx D κ → ℝ) (pa 1 : InpIx M κ → ℝ)
  cgfP := fun _ => dynCgf M mu L logv
  msg := fun k u pa => match k with
    | 0 => varyMsgB v u (pa 1 : InpIx M κ → ℝ)
    | 1 => varyMsgS v u (pa 0 : VaryIx D κ → ℝ)
  mom := gmcMoments
  cgf := gmcCgf

/-- **C23** the chain with varying dynamics can be part of any network whose updates never decrease the bound -/
theorem C23_varying_chain_sound (mu : GIx (Fin D) → ℝ) (L : WIx (Fin D) → ℝ) (v logv : Fin D → ℝ) :
    FamilySound (varyFamily M D κ mu L v logv) {phi : GMCIx M D → ℝ | ((-2 : ℝ) • g1 (gmcFull phi)).PosDef} where
  conj := by
    intro k u pa f
    change Fin 2 at k
    match k with
    | 0 => exact C20_varying_chain_dynamics u mu L v logv (pa (1 : Fin 2) : InpIx M κ → ℝ) f
    | 1 => exact C20_varying_chain_weights u mu L v logv (pa (0 : Fin 2) : VaryIx D κ → ℝ) f
  tangent := fun phi h phi' h' => tangent_gaussian_chain (M := M) (D := D) phi phi' h h'

def SwitchSlot (M D : Nat) (κ : Type) : Fin 2 → Type
  | 0 => SwitchIx D κ
  | 1 => Fin M × κ

instance : ∀ k, Fintype (SwitchSlot M D κ k)
  | 0 => inferInstanceAs (Fintype (SwitchIx D κ))
  | 1 => inferInstanceAs (Fintype (Fin M × κ))

/-- what is added so that the message to the classes is a coefficient for all moments; zero for those that sum to one -/
noncomputable def switchExtra (v : Fin D → ℝ) (z : Fin M × κ → ℝ) : GMCIx M D → ℝ :=
  mkC 0 (fun n => of fun i j => -0.5 * Fin.cases (motive := fun _ => ℝ) 0
    (fun m => if i = j then v i * ((∑ k, z (m, k)) - 1) else 0) n) 0

noncomputable def switchExtraCgf (logv : Fin D → ℝ) (z : Fin M × κ → ℝ) : ℝ :=
  ∑ m : Fin M, (0.5 * (∑ d, logv d) - 0.5 * D * Real.log (2 * Real.pi)) * ((∑ k, z (m, k)) - 1)

/-- `SwitchingGaussianMarkovChainDistribution` with constant distributions of the initial state and the noise.  The parameters
are the ones of the code if the moments of the classes sum to one (`switchFamily_eq`). -/
noncomputable def switchFamily (M D : Nat) (κ : Type) [Fintype κ] (mu : GIx (Fin D) → ℝ) (L : WIx (Fin D) → ℝ)
    (v logv : Fin D → ℝ) : Family where
  I := GMCIx M D
  K := Fin 2
  P := SwitchSlot M D κ
  phiP := fun pa => switchPhi mu L v (pa 0 : SwitchIx D κ → ℝ) (pa 1 : Fin M × κ → ℝ) + switchExtra v (pa 1 : Fin M × κ → ℝ)
  cgfP := fun pa => dynCgf M mu L logv + switchExtraCgf logv (pa 1 : Fin M × κ → ℝ)
  msg := fun k u pa => match k with
    | 0 => switchMsgB v u (pa 1 : Fin M × κ → ℝ)
    | 1 => switchMsgZ v logv u (pa 0 : SwitchIx D κ → ℝ)
  mom := gmcMoments
  cgf := gmcCgf

theorem switchFamily_eq (mu : GIx (Fin D) → ℝ) (L : WIx (Fin D) → ℝ) (v logv : Fin D → ℝ)
    (pa : ∀ k, SwitchSlot M D κ k → ℝ) (hz : ∀ m, ∑ k, (pa 1 : Fin M × κ → ℝ) (m, k) = 1) :
    (switchFamily M D κ mu L v logv).phiP pa = switchPhi mu L v (pa 0 : SwitchIx D κ → ℝ) (pa 1 : Fin M × κ → ℝ)
      ∧ (switchFamily M D κ mu L v logv).cgfP pa = dynCgf M mu L logv := by
  constructor
  · change _ + switchExtra v (pa 1 : Fin M × κ → ℝ) = _
    have : switchExtra v (pa 1 : Fin M × κ → ℝ) = 0 := by
      funext p
      rcases p with p | ⟨n, i, j⟩ | p
      · rfl
      · refine Fin.cases ?_ (fun m => ?_) n
        · exact mul_zero _
        · change -0.5 * (if i = j then v i * ((∑ k, (pa 1 : Fin M × κ → ℝ) (m, k)) - 1) else 0) = 0
          simp [hz]
      · rfl
    rw [this, add_zero]
  · change _ + switchExtraCgf logv (pa 1 : Fin M × κ → ℝ) = _
    simp [switchExtraCgf, hz]

theorem switchExtra_dot (v : Fin D → ℝ) (z : Fin M × κ → ℝ) (u : GMCIx M D → ℝ) :
    switchExtra v z ⬝ᵥ u = ∑ m : Fin M, -0.5 * (∑ i, c1 u m.succ i i * v i) * ((∑ k, z (m, k)) - 1) := by
  rw [c_dot]
  have h0 : ∑ n, ∑ i, c0 (switchExtra v z) n i * c0 u n i = 0 := by
    refine Finset.sum_eq_zero fun n _ => Finset.sum_eq_zero fun i _ => ?_
    exact zero_mul _
  have h2 : ∑ n, ∑ i, ∑ j, c2 (switchExtra v z) n i j * c2 u n i j = 0 := by
    refine Finset.sum_eq_zero fun n _ => Finset.sum_eq_zero fun i _ => Finset.sum_eq_zero fun j _ => ?_
    exact zero_mul _
  rw [h0, h2, zero_add, add_zero]
  change ∑ n, ∑ i, ∑ j, (-0.5 * Fin.cases (motive := fun _ => ℝ) 0
    (fun m => if i = j then v i * ((∑ k, z (m, k)) - 1) else 0) n) * c1 u n i j = _
  rw [Fin.sum_univ_succ]
  simp only [Fin.cases_zero, Fin.cases_succ, mul_zero, zero_mul, Finset.sum_const_zero, zero_add, mul_ite, ite_mul,
    Finset.sum_ite_eq, Finset.mem_univ, if_true]
  refine Finset.sum_congr rfl fun m _ => ?_
  rw [Finset.mul_sum, Finset.sum_mul]
  exact Finset.sum_congr rfl fun i _ => by ring

theorem logpdf_add {α : Type*} [Fintype α] (u phi psi : α → ℝ) (g h f : ℝ) :
    logpdf u (phi + psi) (g + h) f = logpdf u phi g f + (psi ⬝ᵥ u + h) := by
  rw [logpdf_eq, logpdf_eq, add_dotProduct]
  ring

theorem switch_logpdf_extra (u : GMCIx M D → ℝ) (mu : GIx (Fin D) → ℝ) (L : WIx (Fin D) → ℝ) (v logv : Fin D → ℝ)
    (b : SwitchIx D κ → ℝ) (z : Fin M × κ → ℝ) (f : ℝ) :
    logpdf u (switchPhi mu L v b z + switchExtra v z) (dynCgf M mu L logv + switchExtraCgf logv z) f
      = switchMsgZ v logv u b ⬝ᵥ z + (logpdf u (dynPhi mu L v 0 0) (dynCgf M mu L logv) f
        - ∑ m : Fin M, (-0.5 * (∑ i, c1 u m.succ i i * v i) + 0.5 * (∑ d, logv d) - 0.5 * D * Real.log (2 * Real.pi))) := by
  rw [logpdf_add, switch_logpdf, ← switch_pairZ v logv, switchExtra_dot, switchExtraCgf, ← Finset.sum_add_distrib]
  rw [add_assoc, add_assoc]
  refine congrArg _ ?_
  rw [add_sub_left_comm, ← Finset.sum_sub_distrib]
  refine congrArg _ (Finset.sum_congr rfl fun m _ => ?_)
  ring

/-- **C23** the chain with switching dynamics can be part of any network whose updates never decrease the bound -/
theorem C23_switching_chain_sound (mu : GIx (Fin D) → ℝ) (L : WIx (Fin D) → ℝ) (v logv : Fin D → ℝ) :
    FamilySound (switchFamily M D κ mu L v logv) {phi : GMCIx M D → ℝ | ((-2 : ℝ) • g1 (gmcFull phi)).PosDef} where
  conj := by
    intro k u pa f
    change Fin 2 at k
    match k with
    | 0 =>
      obtain ⟨r, hr⟩ := C20_switching_chain_dynamics u mu L v logv (pa (1 : Fin 2) : Fin M × κ → ℝ) f
      refine ⟨r + (switchExtra v (pa (1 : Fin 2) : Fin M × κ → ℝ) ⬝ᵥ u
        + switchExtraCgf logv (pa (1 : Fin 2) : Fin M × κ → ℝ)), fun b => ?_⟩
      have := hr b
      beta_reduce at this
      refine (logpdf_add u _ _ _ _ f).trans ?_
      refine (congrArg (· + _) this).trans (add_assoc _ _ _)
    | 1 => exact ⟨_, fun z => switch_logpdf_extra u mu L v logv (pa (0 : Fin 2) : SwitchIx D κ → ℝ) z f⟩
  tangent := fun phi h phi' h' => tangent_gaussian_chain (M := M) (D := D) phi phi' h h'

end

/-- Three states in one dimension, two matrices, the second transition with the second one. -/
example : logpdf (gmcFixed (fun _ _ => 1 : Fin 3 → Fin 1 → ℝ))
    (switchPhi (gaussianFixed fun _ => 0) (wishartFixed 1) (fun _ => 2) (switchFixed fun k : Fin 2 => fun _ _ => (k : ℝ))
      fun p => if (![0, 1] : Fin 2 → Fin 2) p.1 = p.2 then 1 else 0)
    (dynCgf (D := 1) 2 (gaussianFixed fun _ => 0) (wishartFixed 1) fun _ => Real.log 2) (gmcF 2 1)
    = Real.log (gaussianChainPdf (κ := Empty) (fun _ => 0) (1 : Matrix (Fin 1) (Fin 1) ℝ)
      (fun m => of fun _ _ => (((![0, 1] : Fin 2 → Fin 2) m : ℕ) : ℝ)) (fun _ => 0) (fun _ _ => 2) (fun _ => 0) fun _ _ => 1) :=
  C21_switching_chain (fun _ => 0) 1 PosDef.one _ ![0, 1] (fun _ => 2) (fun _ => two_pos) _

/-- Two matrices in two dimensions with weights one and two: the dynamics are their weighted sum. -/
example : logpdf (gmcFixed (fun n i => n + i : Fin 3 → Fin 2 → ℝ))
    (varyPhi (gaussianFixed fun _ => 0) (wishartFixed 1) (fun _ => 2) (varyFixed fun d i (k : Fin 2) => if d = i then (k : ℝ) else 1)
      (inpFixed fun _ => ![1, 2]))
    (dynCgf (D := 2) 2 (gaussianFixed fun _ => 0) (wishartFixed 1) fun _ => Real.log 2) (gmcF 2 2)
    = Real.log (gaussianChainPdf (κ := Empty) (fun _ => 0) (1 : Matrix (Fin 2) (Fin 2) ℝ)
      (fun _ => of fun d i => ∑ k : Fin 2, (![1, 2] : Fin 2 → ℝ) k * if d = i then (k : ℝ) else 1) (fun _ => 0) (fun _ _ => 2)
        (fun _ => 0) (fun n i => n + i : Fin 3 → Fin 2 → ℝ)) :=
  C21_varying_chain (fun _ => 0) 1 PosDef.one _ (fun _ => ![1, 2]) (fun _ => 2) (fun _ => two_pos) _

/-- Probabilities of two classes that are not certain. -/
example : ∀ m : Fin 2, ∑ k : Fin 2, (fun p : Fin 2 × Fin 2 => (![1 / 3, 2 / 3] : Fin 2 → ℝ) p.2) (m, k) = 1 := by
  intro m
  rw [Fin.sum_univ_two]
  norm_num

end Verif
