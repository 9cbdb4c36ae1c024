import Verif.Model.GaussianChain
import Verif.Props.Families
import Verif.Props.BlockBandedSolve

/-!
# C20, C21, C22, C23 for the Gaussian Markov chain
-/

namespace Verif
open Spec Matrix

section
variable {M D : Nat}

theorem c_dot (m u : GMCIx M D → ℝ) : m ⬝ᵥ u = (∑ n, ∑ i, c0 m n i * c0 u n i) + (∑ n, ∑ i, ∑ j, c1 m n i j * c1 u n i j)
    + ∑ n, ∑ i, ∑ j, c2 m n i j * c2 u n i j := by
  simp only [dotProduct, Fintype.sum_sum_type, Fintype.sum_prod_type, c0, c1, c2, add_assoc]

end

section
variable {M D : Nat} {κ : Type} [Fintype κ]

theorem dyn_dot (m u : DynIx M D κ → ℝ) : m ⬝ᵥ u = (∑ n, ∑ d, ∑ j, d0 m n d j * d0 u n d j)
    + (∑ n, ∑ d, ∑ j, ∑ k, d1 m n d j k * d1 u n d j k) + (∑ n, ∑ d, d2 m n d * d2 u n d)
    + ∑ n, ∑ d, d3 m n d * d3 u n d := by
  simp only [dotProduct, Fintype.sum_sum_type, Fintype.sum_prod_type, d0, d1, d2, d3, add_assoc]

theorem inp_dot (m u : InpIx M κ → ℝ) : m ⬝ᵥ u = (∑ n, ∑ k, i0 m n k * i0 u n k)
    + ∑ n, ∑ k, ∑ l, i1 m n k l * i1 u n k l := by
  simp only [dotProduct, Fintype.sum_sum_type, Fintype.sum_prod_type, i0, i1]

/-- The expected log-density of the chain is the sum of those of its first state and of its transitions. -/
theorem gmc_logpdf (u : GMCIx M D → ℝ) (v : GWIx (Fin D) → ℝ) (a : DynIx M D κ → ℝ) (z : InpIx M κ → ℝ) (f : ℝ) :
    logpdf u (gmcPhi v a z) (gmcCgfP v a z) f
      = ((∑ i, gw0 v i * c0 u 0 i) - 0.5 * gw1 v - 0.5 * (∑ i, ∑ j, gw2 v i j * c1 u 0 i j) + 0.5 * gw3 v)
        + (∑ m : Fin M, ((∑ i, (∑ k, d0 a m i (.inr k) * i0 z m k) * c0 u m.succ i)
          - (∑ i, (∑ k, (∑ d, d1 a m d (.inl i) (.inr k)) * i0 z m k) * c0 u m.castSucc i)
          - 0.5 * (∑ i, d2 a m i * c1 u m.succ i i)
          - 0.5 * (∑ i, ∑ j, (∑ d, d1 a m d (.inl i) (.inl j)) * c1 u m.castSucc i j)
          + (∑ i, ∑ j, d0 a m j (.inl i) * c2 u m i j)
          + 0.5 * (∑ d, d3 a m d)
          - 0.5 * ∑ k, ∑ l, i1 z m k l * ∑ d, d1 a m d (.inr k) (.inr l)))
        + f := by
  rw [logpdf_eq, c_dot]
  have h0 : ∑ n, ∑ i, c0 (gmcPhi v a z) n i * c0 u n i = (∑ i, gw0 v i * c0 u 0 i)
      + (∑ m : Fin M, ∑ i, (∑ k, d0 a m i (.inr k) * i0 z m k) * c0 u m.succ i)
      - ∑ m : Fin M, ∑ i, (∑ k, (∑ d, d1 a m d (.inl i) (.inr k)) * i0 z m k) * c0 u m.castSucc i := by
    change ∑ n, ∑ i, (Fin.cases (motive := fun _ => ℝ) (gw0 v i) (fun m => ∑ k, d0 a m i (.inr k) * i0 z m k) n
      - Fin.lastCases (motive := fun _ => ℝ) 0 (fun m => ∑ k, (∑ d, d1 a m d (.inl i) (.inr k)) * i0 z m k) n)
        * c0 u n i = _
    simp only [sub_mul, Finset.sum_sub_distrib]
    congr 1
    · rw [Fin.sum_univ_succ]
      rfl
    · rw [Fin.sum_univ_castSucc]
      simp
  have h1 : ∑ n, ∑ i, ∑ j, c1 (gmcPhi v a z) n i j * c1 u n i j = -0.5 * (∑ i, ∑ j, gw2 v i j * c1 u 0 i j)
      + (∑ m : Fin M, -0.5 * ∑ i, d2 a m i * c1 u m.succ i i)
      + ∑ m : Fin M, -0.5 * ∑ i, ∑ j, (∑ d, d1 a m d (.inl i) (.inl j)) * c1 u m.castSucc i j := by
    change ∑ n, ∑ i, ∑ j, (Fin.cases (motive := fun _ => ℝ) (-0.5 * gw2 v i j)
        (fun m => -0.5 * if i = j then d2 a m i else 0) n
      + Fin.lastCases (motive := fun _ => ℝ) 0 (fun m => -0.5 * ∑ d, d1 a m d (.inl i) (.inl j)) n) * c1 u n i j = _
    simp only [add_mul, Finset.sum_add_distrib]
    congr 1
    · rw [Fin.sum_univ_succ]
      simp only [Fin.cases_zero, Fin.cases_succ, Finset.mul_sum, mul_assoc, ite_mul, zero_mul, Finset.sum_ite_eq,
        Finset.mem_univ, if_true, mul_ite, mul_zero]
    · rw [Fin.sum_univ_castSucc]
      simp only [Fin.lastCases_castSucc, Fin.lastCases_last, zero_mul, Finset.sum_const_zero, add_zero, Finset.mul_sum,
        mul_assoc]
      simp only [Finset.mul_sum, Finset.sum_mul, mul_assoc]
  have h2 : ∑ n, ∑ i, ∑ j, c2 (gmcPhi v a z) n i j * c2 u n i j = ∑ m, ∑ i, ∑ j, d0 a m j (.inl i) * c2 u m i j := rfl
  rw [h0, h1, h2, gmcCgfP]
  simp only [Finset.sum_add_distrib, Finset.sum_sub_distrib, ← Finset.mul_sum]
  ring

/-- message to the mean and precision of the first state -/
theorem C20_gaussian_chain_initial (u : GMCIx M D → ℝ) (a : DynIx M D κ → ℝ) (z : InpIx M κ → ℝ) (f : ℝ) :
    IsCoefficient (fun v => logpdf u (gmcPhi v a z) (gmcCgfP v a z) f) (gmcMsg0 u) := by
  refine ⟨logpdf u (gmcPhi 0 a z) (gmcCgfP 0 a z) f, fun v => ?_⟩
  beta_reduce
  rw [gmc_logpdf, gmc_logpdf]
  have e : gmcMsg0 u ⬝ᵥ v = (∑ i, c0 u 0 i * gw0 v i) - 0.5 * gw1 v + (∑ i, ∑ j, -0.5 * c1 u 0 i j * gw2 v i j)
      + 0.5 * gw3 v := by
    simp only [gmcMsg0, mkGW, dotProduct, Fintype.sum_sum_type, Fintype.sum_prod_type, Sum.elim_inl, Sum.elim_inr,
      Finset.univ_unique, Finset.sum_singleton, gw0, gw1, gw2, gw3]
    have e : (default : Unit) = () := rfl
    rw [e]
    simp only [Matrix.smul_apply, smul_eq_mul]
    ring
  have z0 : ∀ i, gw0 (0 : GWIx (Fin D) → ℝ) i = 0 := fun _ => rfl
  have z1 : gw1 (0 : GWIx (Fin D) → ℝ) = 0 := rfl
  have z2 : ∀ i j, gw2 (0 : GWIx (Fin D) → ℝ) i j = 0 := fun _ _ => rfl
  have z3 : gw3 (0 : GWIx (Fin D) → ℝ) = 0 := rfl
  rw [e]
  simp only [z0, z1, z2, z3, zero_mul, Finset.sum_const_zero, mul_zero, sub_zero, add_zero, zero_add]
  rw [Finset.sum_congr rfl fun i _ => mul_comm (c0 u 0 i) (gw0 v i),
    Finset.sum_congr rfl fun i _ => Finset.sum_congr rfl fun j _ => show -0.5 * c1 u 0 i j * gw2 v i j
      = -0.5 * (gw2 v i j * c1 u 0 i j) by ring]
  simp only [← Finset.mul_sum]
  ring

/-- message to the inputs -/
theorem C20_gaussian_chain_inputs (u : GMCIx M D → ℝ) (v : GWIx (Fin D) → ℝ) (a : DynIx M D κ → ℝ) (f : ℝ) :
    IsCoefficient (fun z => logpdf u (gmcPhi v a z) (gmcCgfP v a z) f) (gmcMsg2 u a) := by
  refine ⟨logpdf u (gmcPhi v a 0) (gmcCgfP v a 0) f, fun z => ?_⟩
  beta_reduce
  rw [gmc_logpdf, gmc_logpdf, inp_dot]
  have z0 : ∀ m k, i0 (0 : InpIx M κ → ℝ) m k = 0 := fun _ _ => rfl
  have z1 : ∀ m k l, i1 (0 : InpIx M κ → ℝ) m k l = 0 := fun _ _ _ => rfl
  have e0 : ∀ m k, i0 (gmcMsg2 u a) m k = (∑ d, d0 a m d (.inr k) * c0 u m.succ d)
      - ∑ i, (∑ d, d1 a m d (.inl i) (.inr k)) * c0 u m.castSucc i := fun _ _ => rfl
  have e1 : ∀ m k l, i1 (gmcMsg2 u a) m k l = -0.5 * ∑ d, d1 a m d (.inr k) (.inr l) := fun _ _ _ => rfl
  simp only [z0, z1, e0, e1, zero_mul, Finset.sum_const_zero, mul_zero, sub_zero, zero_add]
  rw [← sub_eq_iff_eq_add, ← Finset.sum_add_distrib]
  have : ∀ x y y' w : ℝ, x + y + w - (x + y' + w) = y - y' := fun _ _ _ _ => by ring
  rw [this, ← Finset.sum_sub_distrib]
  refine Finset.sum_congr rfl fun m _ => ?_
  have s1 : ∑ i, (∑ k, d0 a m i (.inr k) * i0 z m k) * c0 u m.succ i
      = ∑ k, (∑ d, d0 a m d (.inr k) * c0 u m.succ d) * i0 z m k := by
    simp only [Finset.sum_mul]
    rw [Finset.sum_comm]
    exact Finset.sum_congr rfl fun k _ => Finset.sum_congr rfl fun i _ => by ring
  have s2 : ∑ i, (∑ k, (∑ d, d1 a m d (.inl i) (.inr k)) * i0 z m k) * c0 u m.castSucc i
      = ∑ k, (∑ i, (∑ d, d1 a m d (.inl i) (.inr k)) * c0 u m.castSucc i) * i0 z m k := by
    rw [Finset.sum_congr rfl fun i _ => Finset.sum_mul _ _ _, Finset.sum_comm]
    refine Finset.sum_congr rfl fun k _ => ?_
    rw [Finset.sum_mul]
    exact Finset.sum_congr rfl fun i _ => by ring
  have s3 : ∑ k, ∑ l, -0.5 * (∑ d, d1 a m d (.inr k) (.inr l)) * i1 z m k l
      = -0.5 * ∑ k, ∑ l, i1 z m k l * ∑ d, d1 a m d (.inr k) (.inr l) := by
    simp only [Finset.mul_sum (s := (Finset.univ : Finset κ))]
    exact Finset.sum_congr rfl fun k _ => Finset.sum_congr rfl fun i _ => by ring
  rw [s1, s2, s3]
  simp only [sub_mul, Finset.sum_sub_distrib]
  ring

/-- message to the dynamics, which is the coefficient of every symmetric second moment -/
theorem C20_gaussian_chain_dynamics (u : GMCIx M D → ℝ) (v : GWIx (Fin D) → ℝ) (z : InpIx M κ → ℝ) (f : ℝ) :
    ∃ r, ∀ a, DynSymm a → logpdf u (gmcPhi v a z) (gmcCgfP v a z) f = gmcMsg1 u z ⬝ᵥ a + r := by
  refine ⟨logpdf u (gmcPhi v (0 : DynIx M D κ → ℝ) z) (gmcCgfP v (0 : DynIx M D κ → ℝ) z) f, fun a ha => ?_⟩
  rw [gmc_logpdf, gmc_logpdf, dyn_dot]
  have z0 : ∀ m d j, d0 (0 : DynIx M D κ → ℝ) m d j = 0 := fun _ _ _ => rfl
  have z1 : ∀ m d j k, d1 (0 : DynIx M D κ → ℝ) m d j k = 0 := fun _ _ _ _ => rfl
  have z2 : ∀ m d, d2 (0 : DynIx M D κ → ℝ) m d = 0 := fun _ _ => rfl
  have z3 : ∀ m d, d3 (0 : DynIx M D κ → ℝ) m d = 0 := fun _ _ => rfl
  simp only [z0, z1, z2, z3, zero_mul, Finset.sum_const_zero, mul_zero, sub_zero, add_zero, ← Finset.sum_add_distrib]
  rw [← sub_eq_iff_eq_add]
  have : ∀ x y w : ℝ, x + y + w - (x + w) = y := fun _ _ _ => by ring
  rw [this]
  refine Finset.sum_congr rfl fun m _ => ?_
  have e0 : ∑ d, ∑ j, d0 (gmcMsg1 u z) m d j * d0 a m d j
      = (∑ i, ∑ j, d0 a m j (.inl i) * c2 u m i j) + ∑ i, (∑ k, d0 a m i (.inr k) * i0 z m k) * c0 u m.succ i := by
    simp only [Fintype.sum_sum_type, Finset.sum_add_distrib]
    congr 1
    · rw [Finset.sum_comm]
      exact Finset.sum_congr rfl fun i _ => Finset.sum_congr rfl fun j _ => mul_comm _ _
    · refine Finset.sum_congr rfl fun i _ => ?_
      rw [Finset.sum_mul]
      refine Finset.sum_congr rfl fun k _ => ?_
      change c0 u m.succ i * i0 z m k * _ = _
      ring
  have e1 : ∑ d, ∑ j, ∑ k, d1 (gmcMsg1 u z) m d j k * d1 a m d j k
      = -0.5 * (∑ i, ∑ j, (∑ d, d1 a m d (.inl i) (.inl j)) * c1 u m.castSucc i j)
        - (∑ i, (∑ k, (∑ d, d1 a m d (.inl i) (.inr k)) * i0 z m k) * c0 u m.castSucc i)
        - 0.5 * ∑ k, ∑ l, i1 z m k l * ∑ d, d1 a m d (.inr k) (.inr l) := by
    have hd : ∀ d, ∑ j, ∑ k, d1 (gmcMsg1 u z) m d j k * d1 a m d j k
        = (∑ i, ∑ j, -0.5 * c1 u m.castSucc i j * d1 a m d (.inl i) (.inl j))
          - (∑ i, ∑ k, c0 u m.castSucc i * i0 z m k * d1 a m d (.inl i) (.inr k))
          + ∑ k, ∑ l, -0.5 * i1 z m k l * d1 a m d (.inr k) (.inr l) := by
      intro d
      simp only [Fintype.sum_sum_type, Finset.sum_add_distrib]
      have hc : ∑ k : κ, ∑ i : Fin D, d1 (gmcMsg1 u z) m d (.inr k) (.inl i) * d1 a m d (.inr k) (.inl i)
          = ∑ i : Fin D, ∑ k : κ, d1 (gmcMsg1 u z) m d (.inl i) (.inr k) * d1 a m d (.inl i) (.inr k) := by
        rw [Finset.sum_comm]
        refine Finset.sum_congr rfl fun i _ => Finset.sum_congr rfl fun k _ => ?_
        rw [ha m d i k]
        rfl
      rw [hc]
      have hb : ∑ i : Fin D, ∑ k : κ, d1 (gmcMsg1 u z) m d (.inl i) (.inr k) * d1 a m d (.inl i) (.inr k)
          = -0.5 * ∑ i, ∑ k, c0 u m.castSucc i * i0 z m k * d1 a m d (.inl i) (.inr k) := by
        simp only [Finset.mul_sum]
        refine Finset.sum_congr rfl fun i _ => Finset.sum_congr rfl fun k _ => ?_
        change -0.5 * c0 u m.castSucc i * i0 z m k * _ = _
        ring
      rw [hb]
      have hx : ∑ i : Fin D, ∑ j : Fin D, d1 (gmcMsg1 u z) m d (.inl i) (.inl j) * d1 a m d (.inl i) (.inl j)
        = ∑ i, ∑ j, -0.5 * c1 u m.castSucc i j * d1 a m d (.inl i) (.inl j) := rfl
      have hy : ∑ i : κ, ∑ j : κ, d1 (gmcMsg1 u z) m d (.inr i) (.inr j) * d1 a m d (.inr i) (.inr j)
        = ∑ k, ∑ l, -0.5 * i1 z m k l * d1 a m d (.inr k) (.inr l) := rfl
      rw [hx, hy]
      ring
    rw [Finset.sum_congr rfl fun d _ => hd d, Finset.sum_add_distrib, Finset.sum_sub_distrib]
    have t1 : ∑ d, ∑ i, ∑ j, -0.5 * c1 u m.castSucc i j * d1 a m d (.inl i) (.inl j)
        = -0.5 * (∑ i, ∑ j, (∑ d, d1 a m d (.inl i) (.inl j)) * c1 u m.castSucc i j) := by
      rw [Finset.sum_comm, Finset.mul_sum]
      refine Finset.sum_congr rfl fun i _ => ?_
      rw [Finset.sum_comm, Finset.mul_sum]
      refine Finset.sum_congr rfl fun j _ => ?_
      rw [Finset.sum_mul, Finset.mul_sum]
      exact Finset.sum_congr rfl fun d _ => by ring
    have t2 : ∑ d, ∑ i, ∑ k, c0 u m.castSucc i * i0 z m k * d1 a m d (.inl i) (.inr k)
        = ∑ i, (∑ k, (∑ d, d1 a m d (.inl i) (.inr k)) * i0 z m k) * c0 u m.castSucc i := by
      rw [Finset.sum_comm]
      refine Finset.sum_congr rfl fun i _ => ?_
      rw [Finset.sum_comm, Finset.sum_mul]
      refine Finset.sum_congr rfl fun k _ => ?_
      rw [Finset.sum_mul, Finset.sum_mul]
      exact Finset.sum_congr rfl fun d _ => by ring
    have t3 : ∑ d, ∑ k, ∑ l, -0.5 * i1 z m k l * d1 a m d (.inr k) (.inr l)
        = -0.5 * ∑ k, ∑ l, i1 z m k l * ∑ d, d1 a m d (.inr k) (.inr l) := by
      rw [Finset.sum_comm, Finset.mul_sum]
      refine Finset.sum_congr rfl fun k _ => ?_
      rw [Finset.sum_comm, Finset.mul_sum]
      refine Finset.sum_congr rfl fun l _ => ?_
      rw [Finset.mul_sum, Finset.mul_sum]
      exact Finset.sum_congr rfl fun d _ => by ring
    rw [t1, t2, t3]
    ring
  have e2 : ∑ d, d2 (gmcMsg1 u z) m d * d2 a m d = -0.5 * ∑ i, d2 a m i * c1 u m.succ i i := by
    rw [Finset.mul_sum]
    refine Finset.sum_congr rfl fun i _ => ?_
    change -0.5 * c1 u m.succ i i * _ = _
    ring
  have e3 : ∑ d, d3 (gmcMsg1 u z) m d * d3 a m d = 0.5 * ∑ d, d3 a m d := by
    rw [Finset.mul_sum]
    rfl
  simp only [Finset.sum_add_distrib]
  rw [e0, e1, e2, e3]
  ring

end

end Verif
