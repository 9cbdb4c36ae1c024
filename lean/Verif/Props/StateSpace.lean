import Verif.Model.StateSpace
import Verif.Props.FactorModel
import Verif.Props.GaussianChainMoments

/-!
# C23 for a complete model: the linear state-space model with inputs and missing values
-/

namespace Verif
open Spec Matrix

section
variable {M D : Nat}

/-- **C19** The message of `_MarkovChainToGaussian` and its moments. -/
theorem C19_chain_to_gaussian (m : Fin (M + 1) → GIx (Fin D) → ℝ) (u : GMCIx M D → ℝ) :
    ∑ n, m n ⬝ᵥ chainToGaussian u n = chainToGaussianMsg m ⬝ᵥ u := by
  rw [c_dot]
  have h2 : ∑ n : Fin M, ∑ i, ∑ j, c2 (chainToGaussianMsg m) n i j * c2 u n i j = 0 :=
    Finset.sum_eq_zero fun n _ => Finset.sum_eq_zero fun i _ => Finset.sum_eq_zero fun j _ => zero_mul _
  rw [h2, add_zero, ← Finset.sum_add_distrib]
  exact Finset.sum_congr rfl fun n _ => g_dot _ _

/-- the moments are those of the single states -/
theorem C19_chain_to_gaussian_fixed (x : Fin (M + 1) → Fin D → ℝ) (n : Fin (M + 1)) :
    chainToGaussian (gmcFixed x) n = gaussianFixed (x n) := rfl

theorem dyn_adjoint {κ : Type} [Fintype κ] (m : DynIx M D κ → ℝ) (v : Fin D → GIx (Fin D ⊕ κ) → ℝ) :
    m ⬝ᵥ unitDyn (fun _ d => v d)
      = ∑ d, dynMsg m d ⬝ᵥ v d + (∑ n, ∑ d, d2 m n d * (1 * 1) + ∑ n, ∑ d, d3 m n d * (0 + 0)) := by
  rw [dyn_dot, add_assoc]
  congr 1
  simp only [g_dot, Finset.sum_add_distrib]
  congr 1
  · rw [Finset.sum_comm]
    refine Finset.sum_congr rfl fun d _ => ?_
    rw [Finset.sum_comm]
    refine Finset.sum_congr rfl fun j _ => ?_
    change ∑ n, d0 m n d j * (g0 (v d) j * 1) = (∑ n, d0 m n d j * 1) * g0 (v d) j
    rw [Finset.sum_mul]
    exact Finset.sum_congr rfl fun n _ => by ring
  · rw [Finset.sum_comm]
    refine Finset.sum_congr rfl fun d _ => ?_
    rw [Finset.sum_comm]
    refine Finset.sum_congr rfl fun j _ => ?_
    rw [Finset.sum_comm]
    refine Finset.sum_congr rfl fun k _ => ?_
    change ∑ n, d1 m n d j k * (g1 (v d) j k * 1) = (∑ n, d1 m n d j k * 1) * g1 (v d) j k
    rw [Finset.sum_mul]
    exact Finset.sum_congr rfl fun n _ => by ring

theorem dynMsg_zero {κ : Type} (d : Fin D) : dynMsg (0 : DynIx M D κ → ℝ) d = 0 := by
  funext k
  rcases k with j | ⟨j, k⟩
  · change ∑ n : Fin M, (0 : ℝ) * 1 = 0
    simp
  · change ∑ n : Fin M, (0 : ℝ) * 1 = 0
    simp

theorem dynMsg_empty {κ : Type} (hM : M = 0) (m : DynIx M D κ → ℝ) (d : Fin D) : dynMsg m d = 0 := by
  subst hM
  funext k
  rcases k with j | ⟨j, k⟩
  · exact Fin.sum_univ_zero fun n => d0 m n d j * 1
  · exact Fin.sum_univ_zero fun n => d1 m n d j k * 1

theorem chainToGaussianMsg_zero : chainToGaussianMsg (fun _ => 0 : Fin (M + 1) → GIx (Fin D) → ℝ) = 0 := by
  funext k
  rcases k with k | k | k <;> rfl

end

section
variable {A B ι : Type*} [Fintype A] [Fintype B] [Fintype ι]

theorem dot_adjoint_left (t : Fin 2 → ℝ) (x : B → GIx ι → ℝ) (m : A × B → Fin 4 → ℝ) (v : A → GIx ι → ℝ) :
    ∑ p, m p ⬝ᵥ wrap0 (dotMoments (v p.1) (x p.2)) t
      = ∑ i, (∑ j, dotMsg (wrap0MsgX (m (i, j)) t) (x j)) ⬝ᵥ v i + ∑ p, (m p 2 * t 0 + m p 3 * t 1) := by
  simp only [wrap0_adjoint_x, Finset.sum_add_distrib, dotMoments_adjoint, sum_dotProduct]
  rw [Fintype.sum_prod_type]

theorem dot_adjoint_right (t : Fin 2 → ℝ) (w : A → GIx ι → ℝ) (m : A × B → Fin 4 → ℝ) (v : B → GIx ι → ℝ) :
    ∑ p, m p ⬝ᵥ wrap0 (dotMoments (w p.1) (v p.2)) t
      = ∑ j, (∑ i, dotMsg (wrap0MsgX (m (i, j)) t) (w i)) ⬝ᵥ v j + ∑ p, (m p 2 * t 0 + m p 3 * t 1) := by
  simp only [wrap0_adjoint_x, Finset.sum_add_distrib, dotMoments_comm (w _), dotMoments_adjoint, sum_dotProduct]
  rw [Fintype.sum_prod_type, Finset.sum_comm]

theorem dot_adjoint_tau (f : A × B → Fin 2 → ℝ) (m : A × B → Fin 4 → ℝ) (v : Unit → Fin 2 → ℝ) :
    ∑ p, m p ⬝ᵥ wrap0 (f p) (v ()) = ∑ q : Unit, (∑ p, wrap0MsgT (m p) (f p)) ⬝ᵥ v q + 0 := by
  have e : ∑ q : Unit, (∑ p, wrap0MsgT (m p) (f p)) ⬝ᵥ v q = (∑ p, wrap0MsgT (m p) (f p)) ⬝ᵥ v () :=
    Fintype.sum_unique _
  rw [e, sum_dotProduct, add_zero]
  exact Finset.sum_congr rfl fun p _ => wrap0_adjoint_t (m p) (f p) (v ())

theorem ard_adjoint (mu : A → ι → Fin 2 → ℝ) (m : A → ι × Fin 4 → ℝ) (v : ι → Fin 2 → ℝ) :
    ∑ p, m p ⬝ᵥ (fun i : ι × Fin 4 => wrap0 (mu p i.1) (v i.1) i.2)
      = ∑ d, (∑ i, wrap0MsgT (fun j => m i (d, j)) (mu i d)) ⬝ᵥ v d + 0 := by
  simp only [sum_dotProduct, add_zero, ← wrap0_adjoint_t]
  rw [Finset.sum_comm]
  refine Finset.sum_congr rfl fun p _ => ?_
  simp only [dotProduct]
  rw [Fintype.sum_prod_type]

end

/-! ### the parameters of the chain are valid -/

section
variable {M D : Nat}

theorem gmcFull_quad (phi : GMCIx M D → ℝ) (x : Fin (M + 1) × Fin D → ℝ) :
    x ⬝ᵥ (g1 (gmcFull phi)).mulVec x = (∑ n, ∑ i, ∑ j, c1 phi n i j * (x (n, i) * x (n, j)))
      + ∑ n : Fin M, ∑ i, ∑ j, c2 phi n i j * (x (n.castSucc, i) * x (n.succ, j)) := by
  have h := gmc_pairing (mkG 0 (vecMulVec x x)) (by ext p q; exact mul_comm _ _) phi
  have e : (mkG 0 (vecMulVec x x) : GIx (Fin (M + 1) × Fin D) → ℝ) ⬝ᵥ gmcFull phi = x ⬝ᵥ (g1 (gmcFull phi)).mulVec x := by
    rw [g_dot, ← frob_outer]
    change ∑ i, (0 : ℝ) * _ + _ = _
    simp only [zero_mul, Finset.sum_const_zero, zero_add]
    rfl
  rw [← e, ← h, dotProduct_comm, c_dot]
  have z : ∑ n, ∑ i, c0 phi n i * c0 (gmcRestrict (mkG 0 (vecMulVec x x))) n i = 0 :=
    Finset.sum_eq_zero fun n _ => Finset.sum_eq_zero fun i _ => mul_zero _
  rw [z, zero_add]
  rfl

theorem gmcFull_symm (phi : GMCIx M D → ℝ) (h : ∀ n i j, c1 phi n i j = c1 phi n j i) :
    (g1 (gmcFull phi)).IsHermitian := by
  ext p q
  rw [conjTranspose_apply, star_trivial]
  change (if q.1 = p.1 then c1 phi q.1 q.2 p.2
      else if h : q.1.val + 1 = p.1.val then 0.5 * c2 phi ⟨q.1, by omega⟩ q.2 p.2
      else if h : p.1.val + 1 = q.1.val then 0.5 * c2 phi ⟨p.1, by omega⟩ p.2 q.2
      else 0) = (if p.1 = q.1 then c1 phi p.1 p.2 q.2
      else if h : p.1.val + 1 = q.1.val then 0.5 * c2 phi ⟨p.1, by omega⟩ p.2 q.2
      else if h : q.1.val + 1 = p.1.val then 0.5 * c2 phi ⟨q.1, by omega⟩ q.2 p.2
      else 0)
  by_cases h1 : p.1 = q.1
  · rw [if_pos h1, if_pos h1.symm, h1, h]
  · rw [if_neg h1, if_neg (fun e => h1 e.symm)]
    split_ifs
    · omega
    · rfl
    · rfl
    · rfl

theorem gmcFull_add (phi phi' : GMCIx M D → ℝ) : gmcFull (phi + phi') = gmcFull phi + gmcFull phi' := by
  have h := gmcFull_sub phi (phi + phi')
  rw [add_sub_cancel_left] at h
  rw [h]
  abel

/-- the messages of single states -/
theorem gmcFull_message (m : Fin (M + 1) → GIx (Fin D) → ℝ) (h : ∀ n, ((-2 : ℝ) • g1 (m n)).PosSemidef) :
    ((-2 : ℝ) • g1 (gmcFull (chainToGaussianMsg m))).PosSemidef := by
  have hs : ∀ n i j, g1 (m n) i j = g1 (m n) j i := by
    intro n i j
    have e := congrFun (congrFun (h n).isHermitian.eq j) i
    rw [conjTranspose_apply, star_trivial, Matrix.smul_apply, Matrix.smul_apply, smul_eq_mul, smul_eq_mul] at e
    linarith
  refine PosSemidef.of_dotProduct_mulVec_nonneg ?_ fun x => ?_
  · have := gmcFull_symm (chainToGaussianMsg m) hs
    exact this.smul (k := (-2 : ℝ)) (by simp [IsSelfAdjoint])
  · rw [star_trivial, smul_mulVec, dotProduct_smul, gmcFull_quad]
    have z : ∑ n : Fin M, ∑ i, ∑ j, c2 (chainToGaussianMsg m) n i j * (x (n.castSucc, i) * x (n.succ, j)) = 0 :=
      Finset.sum_eq_zero fun n _ => Finset.sum_eq_zero fun i _ => Finset.sum_eq_zero fun j _ => zero_mul _
    rw [z, add_zero, smul_eq_mul, Finset.mul_sum]
    refine Finset.sum_nonneg fun n _ => ?_
    have := (h n).dotProduct_mulVec_nonneg fun i => x (n, i)
    rw [star_trivial, smul_mulVec, dotProduct_smul, smul_eq_mul] at this
    refine this.trans (le_of_eq ?_)
    congr 1
    simp only [dotProduct, mulVec, Finset.mul_sum]
    refine Finset.sum_congr rfl fun i _ => Finset.sum_congr rfl fun j _ => ?_
    change _ = g1 (m n) i j * _
    ring

/-- one transition: an expected square -/
theorem transition_quad {κ : Type} [Fintype κ] (A : Fin D → GIx (Fin D ⊕ κ) → ℝ) (hA : ∀ d, SecondMoment (A d))
    (x y : Fin D → ℝ) :
    (∑ i, ((y i - ∑ j, g0 (A i) (.inl j) * x j) * (y i - ∑ j, g0 (A i) (.inl j) * x j)))
      ≤ (∑ i, y i * y i) + (∑ i, ∑ j, (∑ d, g1 (A d) (.inl i) (.inl j)) * (x i * x j))
        - 2 * ∑ i, ∑ j, g0 (A j) (.inl i) * (x i * y j) := by
  have e1 : ∑ i, ∑ j, (∑ d, g1 (A d) (.inl i) (.inl j)) * (x i * x j)
      = ∑ d, ∑ i, ∑ j, g1 (A d) (.inl i) (.inl j) * (x i * x j) := by
    simp only [Finset.sum_mul]
    have : ∀ i, ∑ j, ∑ d, g1 (A d) (.inl i) (.inl j) * (x i * x j) = ∑ d, ∑ j, g1 (A d) (.inl i) (.inl j) * (x i * x j) :=
      fun i => Finset.sum_comm
    simp only [this]
    exact Finset.sum_comm
  have e2 : ∑ i, ∑ j, g0 (A j) (.inl i) * (x i * y j) = ∑ d, (∑ j, g0 (A d) (.inl j) * x j) * y d := by
    rw [Finset.sum_comm]
    refine Finset.sum_congr rfl fun d _ => ?_
    rw [Finset.sum_mul]
    exact Finset.sum_congr rfl fun j _ => by ring
  rw [e1, e2, Finset.mul_sum, ← Finset.sum_add_distrib, ← Finset.sum_sub_distrib]
  refine Finset.sum_le_sum fun d _ => ?_
  obtain ⟨C, hC, e⟩ := hA d
  have hq := hC.dotProduct_mulVec_nonneg (Sum.elim x fun _ => 0)
  rw [star_trivial] at hq
  have eq : (Sum.elim x fun _ => 0) ⬝ᵥ C.mulVec (Sum.elim x fun _ => 0) = ∑ i, ∑ j, C (.inl i) (.inl j) * (x i * x j) := by
    simp only [dotProduct, mulVec, Fintype.sum_sum_type, Sum.elim_inl, Sum.elim_inr, mul_zero, zero_mul,
      Finset.sum_const_zero, add_zero, Finset.mul_sum]
    exact Finset.sum_congr rfl fun i _ => Finset.sum_congr rfl fun j _ => by ring
  have e3 : ∑ i, ∑ j, g1 (A d) (.inl i) (.inl j) * (x i * x j)
      = (∑ i, ∑ j, C (.inl i) (.inl j) * (x i * x j)) + (∑ j, g0 (A d) (.inl j) * x j) * (∑ j, g0 (A d) (.inl j) * x j) := by
    rw [Finset.sum_mul_sum, ← Finset.sum_add_distrib]
    refine Finset.sum_congr rfl fun i _ => ?_
    rw [← Finset.sum_add_distrib]
    refine Finset.sum_congr rfl fun j _ => ?_
    rw [e]
    change (C _ _ + g0 (A d) _ * g0 (A d) _) * _ = _
    ring
  rw [eq] at hq
  rw [e3]
  nlinarith

/-- the prior of the chain given second moments of the dynamics -/
theorem gmcPhi_quad {κ : Type} [Fintype κ] (v : GWIx (Fin D) → ℝ) (a : DynIx M D κ → ℝ) (z : InpIx M κ → ℝ)
    (x : Fin (M + 1) × Fin D → ℝ) :
    -2 * (x ⬝ᵥ (g1 (gmcFull (gmcPhi v a z))).mulVec x)
      = (∑ i, ∑ j, gw2 v i j * (x (0, i) * x (0, j)))
        + ∑ m : Fin M, ((∑ i, d2 a m i * (x (m.succ, i) * x (m.succ, i)))
          + (∑ i, ∑ j, (∑ d, d1 a m d (.inl i) (.inl j)) * (x (m.castSucc, i) * x (m.castSucc, j)))
          - 2 * ∑ i, ∑ j, d0 a m j (.inl i) * (x (m.castSucc, i) * x (m.succ, j))) := by
  have h := gmc_logpdf (gmcRestrict (mkG 0 (vecMulVec x x))) v a z 0
  have h' := gmc_logpdf (0 : GMCIx M D → ℝ) v a z 0
  rw [logpdf_eq] at h h'
  have hq := gmc_pairing (mkG 0 (vecMulVec x x)) (by ext p q; exact mul_comm _ _) (gmcPhi v a z)
  have e : (mkG 0 (vecMulVec x x) : GIx (Fin (M + 1) × Fin D) → ℝ) ⬝ᵥ gmcFull (gmcPhi v a z)
      = x ⬝ᵥ (g1 (gmcFull (gmcPhi v a z))).mulVec x := by
    rw [g_dot, ← frob_outer]
    change ∑ i, (0 : ℝ) * _ + _ = _
    simp only [zero_mul, Finset.sum_const_zero, zero_add]
    rfl
  rw [dotProduct_comm, e] at hq
  rw [hq] at h
  have k0 : ∀ n i, c0 (gmcRestrict (mkG 0 (vecMulVec x x))) n i = 0 := fun _ _ => rfl
  have k1 : ∀ n i j, c1 (gmcRestrict (mkG 0 (vecMulVec x x))) n i j = x (n, i) * x (n, j) := fun _ _ _ => rfl
  have k2 : ∀ n i j, c2 (gmcRestrict (mkG 0 (vecMulVec x x))) n i j = x (n.castSucc, i) * x (n.succ, j) := fun _ _ _ => rfl
  have l0 : ∀ n i, c0 (0 : GMCIx M D → ℝ) n i = 0 := fun _ _ => rfl
  have l1 : ∀ n i j, c1 (0 : GMCIx M D → ℝ) n i j = 0 := fun _ _ _ => rfl
  have l2 : ∀ n i j, c2 (0 : GMCIx M D → ℝ) n i j = 0 := fun _ _ _ => rfl
  simp only [k0, k1, k2, l0, l1, l2, mul_zero, Finset.sum_const_zero, zero_add, sub_zero, zero_sub, dotProduct_zero,
    add_zero, Finset.sum_add_distrib, Finset.sum_sub_distrib, ← Finset.mul_sum, Finset.sum_neg_distrib] at h h' ⊢
  linarith

theorem gmcPhi_posDef {κ : Type} [Fintype κ] (v : GWIx (Fin D) → ℝ) (hv : (gw2 v).PosDef)
    (A : Fin M → Fin D → GIx (Fin D ⊕ κ) → ℝ) (hA : ∀ m d, SecondMoment (A m d)) (z : InpIx M κ → ℝ) :
    ((-2 : ℝ) • g1 (gmcFull (gmcPhi v (unitDyn A) z))).PosDef := by
  have sA : ∀ m d i j, g1 (A m d) i j = g1 (A m d) j i := fun m d i j =>
    ((hA m d).posSemidef.isHermitian.apply i j).symm
  have hs : ∀ n i j, c1 (gmcPhi v (unitDyn A) z) n i j = c1 (gmcPhi v (unitDyn A) z) n j i := by
    intro n i j
    change Fin.cases (motive := fun _ => ℝ) (-0.5 * gw2 v i j)
        (fun m => -0.5 * if i = j then d2 (unitDyn A) m i else 0) n
      + Fin.lastCases (motive := fun _ => ℝ) 0 (fun m => -0.5 * ∑ d, d1 (unitDyn A) m d (.inl i) (.inl j)) n
      = Fin.cases (motive := fun _ => ℝ) (-0.5 * gw2 v j i)
        (fun m => -0.5 * if j = i then d2 (unitDyn A) m j else 0) n
      + Fin.lastCases (motive := fun _ => ℝ) 0 (fun m => -0.5 * ∑ d, d1 (unitDyn A) m d (.inl j) (.inl i)) n
    congr 1
    · refine Fin.cases ?_ (fun m => ?_) n
      · simp only [Fin.cases_zero]
        rw [hv.isHermitian.apply i j |>.symm]
        rfl
      · simp only [Fin.cases_succ]
        by_cases hij : i = j
        · rw [hij]
        · rw [if_neg hij, if_neg fun e => hij e.symm]
    · refine Fin.lastCases ?_ (fun m => ?_) n
      · simp only [Fin.lastCases_last]
      · simp only [Fin.lastCases_castSucc]
        congr 1
        refine Finset.sum_congr rfl fun d _ => ?_
        change g1 (A m d) _ _ * 1 = g1 (A m d) _ _ * 1
        rw [sA]
  refine PosDef.of_dotProduct_mulVec_pos ?_ fun x hx => ?_
  · exact (gmcFull_symm _ hs).smul (k := (-2 : ℝ)) (by simp [IsSelfAdjoint])
  rw [star_trivial, smul_mulVec, dotProduct_smul, smul_eq_mul, gmcPhi_quad]
  by_contra hc
  apply hx
  have k0 : ∀ m d j, d0 (unitDyn A) m d j = g0 (A m d) j := fun m d j => mul_one _
  have k1 : ∀ m d i j, d1 (unitDyn A) m d i j = g1 (A m d) i j := fun m d i j => mul_one _
  have k2 : ∀ m d, d2 (unitDyn A) m d = 1 := fun m d => mul_one _
  simp only [k0, k1, k2, one_mul] at hc
  have ht := fun m => transition_quad (A m) (hA m) (fun i => x (m.castSucc, i)) fun i => x (m.succ, i)
  have hn : ∀ m : Fin M, 0 ≤ ∑ i, ((x (m.succ, i) - ∑ j, g0 (A m i) (.inl j) * x (m.castSucc, j))
      * (x (m.succ, i) - ∑ j, g0 (A m i) (.inl j) * x (m.castSucc, j))) :=
    fun m => Finset.sum_nonneg fun i _ => mul_self_nonneg _
  have e0 : ∑ i, ∑ j, gw2 v i j * (x (0, i) * x (0, j)) = (fun i => x (0, i)) ⬝ᵥ (gw2 v).mulVec fun i => x (0, i) := by
    simp only [dotProduct, mulVec, Finset.mul_sum]
    exact Finset.sum_congr rfl fun i _ => Finset.sum_congr rfl fun j _ => by ring
  have h0 : 0 ≤ (fun i => x (0, i)) ⬝ᵥ (gw2 v).mulVec fun i => x (0, i) := by
    have := hv.posSemidef.dotProduct_mulVec_nonneg fun i => x (0, i)
    rwa [star_trivial] at this
  rw [e0] at hc
  have hT : ∀ m : Fin M, 0 ≤ (∑ i, x (m.succ, i) * x (m.succ, i))
      + (∑ i, ∑ j, (∑ d, g1 (A m d) (.inl i) (.inl j)) * (x (m.castSucc, i) * x (m.castSucc, j)))
      - 2 * ∑ i, ∑ j, g0 (A m j) (.inl i) * (x (m.castSucc, i) * x (m.succ, j)) := fun m => (hn m).trans (ht m)
  have hsum := Finset.sum_nonneg fun m (_ : m ∈ Finset.univ) => hT m
  have z0 : (fun i => x (0, i)) = 0 := by
    by_contra hne
    have := hv.dotProduct_mulVec_pos hne
    rw [star_trivial] at this
    exact hc (by linarith)
  have zT : ∀ m : Fin M, (∑ i, x (m.succ, i) * x (m.succ, i))
      + (∑ i, ∑ j, (∑ d, g1 (A m d) (.inl i) (.inl j)) * (x (m.castSucc, i) * x (m.castSucc, j)))
      - 2 * ∑ i, ∑ j, g0 (A m j) (.inl i) * (x (m.castSucc, i) * x (m.succ, j)) = 0 := by
    intro m
    refine (Finset.sum_eq_zero_iff_of_nonneg fun m _ => hT m).1 (le_antisymm ?_ hsum) m (Finset.mem_univ _)
    by_contra hlt
    exact hc (by linarith [not_le.1 hlt])
  have zn : ∀ n : Fin (M + 1), ∀ i, x (n, i) = 0 := by
    intro n
    induction n using Fin.induction with
    | zero => exact fun i => congrFun z0 i
    | succ m ih =>
      intro i
      have h1 : ∑ i, ((x (m.succ, i) - ∑ j, g0 (A m i) (.inl j) * x (m.castSucc, j))
          * (x (m.succ, i) - ∑ j, g0 (A m i) (.inl j) * x (m.castSucc, j))) = 0 :=
        le_antisymm ((ht m).trans (zT m).le) (hn m)
      have h2 := (Finset.sum_eq_zero_iff_of_nonneg fun i _ => mul_self_nonneg _).1 h1 i (Finset.mem_univ _)
      have h3 := mul_self_eq_zero.1 h2
      simpa [ih] using h3
  funext p
  exact zn p.1 p.2

/-- the moments of the single states -/
theorem secondMoment_chain (phi : GMCIx M D → ℝ) (h : ((-2 : ℝ) • g1 (gmcFull phi)).PosDef) (n : Fin (M + 1)) :
    SecondMoment (chainToGaussian (gmcMoments phi) n) := by
  rw [(C22_gaussian_chain phi h).1]
  refine ⟨(((-2 : ℝ) • g1 (gmcFull phi))⁻¹).submatrix (fun i => (n, i)) fun i => (n, i), h.inv.posSemidef.submatrix _, ?_⟩
  rfl

/-- the message of the chain to a row of the dynamics -/
theorem dynMsg_posSemidef {κ : Type} [Fintype κ] (u : GMCIx M D → ℝ) (hu : ∀ n, SecondMoment (chainToGaussian u n))
    (z : Fin M → κ → ℝ) (d : Fin D) : ((-2 : ℝ) • g1 (dynMsg (gmcMsg1 u (inpFixed z)) d)).PosSemidef := by
  choose C hC e using hu
  have hm : (-2 : ℝ) • g1 (dynMsg (gmcMsg1 u (inpFixed z)) d)
      = ∑ m : Fin M, ((fromBlocks (C m.castSucc) 0 0 0 : Matrix (Fin D ⊕ κ) (Fin D ⊕ κ) ℝ)
        + vecMulVec (Sum.elim (c0 u m.castSucc) (z m)) (Sum.elim (c0 u m.castSucc) (z m))) := by
    ext i j
    rw [Matrix.smul_apply, Matrix.sum_apply, smul_eq_mul]
    change -2 * ∑ m, d1 (gmcMsg1 u (inpFixed z)) m d i j * 1 = _
    rw [Finset.mul_sum]
    refine Finset.sum_congr rfl fun m _ => ?_
    have ec : ∀ i j, c1 u m.castSucc i j = C m.castSucc i j + c0 u m.castSucc i * c0 u m.castSucc j :=
      fun i j => congrFun (congrFun (e m.castSucc) i) j
    rw [Matrix.add_apply, vecMulVec_apply]
    rcases i with i | k <;> rcases j with j | l
    · change -2 * (-0.5 * c1 u m.castSucc i j * 1) = C m.castSucc i j + c0 u m.castSucc i * c0 u m.castSucc j
      rw [ec]
      ring
    · change -2 * (-0.5 * c0 u m.castSucc i * z m l * 1) = 0 + c0 u m.castSucc i * z m l
      ring
    · change -2 * (-0.5 * c0 u m.castSucc j * z m k * 1) = 0 + z m k * c0 u m.castSucc j
      ring
    · change -2 * (-0.5 * (z m k * z m l) * 1) = 0 + z m k * z m l
      ring
  rw [hm]
  refine posSemidef_sum _ fun m _ => PosSemidef.add ?_ (posSemidef_outer _)
  refine PosSemidef.of_dotProduct_mulVec_nonneg ?_ fun x => ?_
  · have := (hC m.castSucc).isHermitian
    rw [IsHermitian, fromBlocks_conjTranspose, this.eq]
    simp
  · have := (hC m.castSucc).dotProduct_mulVec_nonneg fun i => x (.inl i)
    rw [star_trivial] at this ⊢
    refine this.trans (le_of_eq ?_)
    simp [dotProduct, mulVec, Fintype.sum_sum_type]

end

variable (P : SSParams)

def ssDom : (n : SS) → Set ((ssFam P n).I → ℝ)
  | .alpha => {phi : Fin 2 → ℝ | phi 0 < 0 ∧ 0 < phi 1}
  | .a => {phi : GIx (Fin P.D ⊕ Fin P.K) → ℝ | ((-2 : ℝ) • g1 phi).PosDef}
  | .x => {phi : GMCIx P.M P.D → ℝ | ((-2 : ℝ) • g1 (gmcFull phi)).PosDef}
  | .gamma => {phi : Fin 2 → ℝ | phi 0 < 0 ∧ 0 < phi 1}
  | .c => {phi : GIx (Fin P.D) → ℝ | ((-2 : ℝ) • g1 phi).PosDef}
  | .tau => {phi : Fin 2 → ℝ | phi 0 < 0 ∧ 0 < phi 1}
  | .y => {phi : Fin 2 → ℝ | phi 1 < 0}

theorem ssSlot_own (n : SS) (k) (u : SSMoments P) (v) : ssSlot P n k (Function.update u n v) = ssSlot P n k u := by
  cases n <;> rfl

theorem ss_adjoint_y_x (t : Fin 2 → ℝ) (w : Fin P.J → GIx (Fin P.D) → ℝ) (m : Fin P.J × Fin (P.M + 1) → Fin 4 → ℝ)
    (v : Unit → GMCIx P.M P.D → ℝ) :
    ∑ p, m p ⬝ᵥ wrap0 (dotMoments (w p.1) (chainToGaussian (v ()) p.2)) t
      = ∑ q : Unit, (chainToGaussianMsg fun n => ∑ i, dotMsg (wrap0MsgX (m (i, n)) t) (w i)) ⬝ᵥ v q
        + ∑ p, (m p 2 * t 0 + m p 3 * t 1) := by
  rw [dot_adjoint_right t w m (chainToGaussian (v ())), C19_chain_to_gaussian]
  simp

theorem ss_adjoint_x_a (m : Unit → DynIx P.M P.D (Fin P.K) → ℝ) (v : Fin P.D → GIx (Fin P.D ⊕ Fin P.K) → ℝ) :
    ∑ p : Unit, m p ⬝ᵥ unitDyn (fun _ d => v d) = ∑ d, dynMsg (m ()) d ⬝ᵥ v d
      + (∑ n, ∑ d, d2 (m ()) n d * (1 * 1) + ∑ n, ∑ d, d3 (m ()) n d * (0 + 0)) := by
  rw [← dyn_adjoint]
  exact Fintype.sum_unique _

theorem ss_sound : NetSound (ssNet P) (ssDom P) where
  fam := by
    intro n
    change SS at n
    cases n
    · exact C23_gamma_sound
    · exact C23_gaussianARD_sound (Fin P.D ⊕ Fin P.K)
    · exact C23_gaussian_chain_sound
    · exact C23_gamma_sound
    · exact C23_gaussianARD_sound (Fin P.D)
    · exact C23_gamma_sound
    · exact C23_gaussianARD_scalar_sound
  ann := fun _ => one_pos
  own := fun n k u v => ssSlot_own P n k u v
  one := by
    intro c' n k k' hk
    change SS at c'
    cases c'
    · exact Or.inl fun _ _ => rfl
    · exact absurd (Subsingleton.elim (α := Unit) k k') hk
    · change Fin 3 at k k'
      match k, k' with
      | 0, _ => exact Or.inl fun _ _ => rfl
      | 2, _ => exact Or.inl fun _ _ => rfl
      | 1, 0 => exact Or.inr fun _ _ => rfl
      | 1, 2 => exact Or.inr fun _ _ => rfl
      | 1, 1 => exact absurd rfl hk
    · exact Or.inl fun _ _ => rfl
    · exact absurd (Subsingleton.elim (α := Unit) k k') hk
    · exact Or.inl fun _ _ => rfl
    · exact absurd (Subsingleton.elim (α := Unit) k k') hk
  adjoint := by
    intro c' k n u m
    change SS at c' n
    cases c'
    · exact adjoint_zero (ssNet P) _ _ _ _ _ (fun _ => rfl) rfl
    · cases n
      · exact ⟨_, fun v => ard_adjoint (fun i d => fixed0 (P.muA i d)) m v⟩
      all_goals exact adjoint_zero (ssNet P) _ _ _ _ _ (fun _ => rfl) rfl
    · change Fin 3 at k
      match k with
      | 0 => exact adjoint_zero (ssNet P) _ _ _ _ _ (fun _ => rfl) rfl
      | 2 => exact adjoint_zero (ssNet P) _ _ _ _ _ (fun _ => rfl) rfl
      | 1 =>
        cases n
        · exact adjoint_zero (ssNet P) _ _ _ _ _ (fun _ => rfl) rfl
        · exact ⟨_, fun v => ss_adjoint_x_a P m v⟩
        all_goals exact adjoint_zero (ssNet P) _ _ _ _ _ (fun _ => rfl) rfl
    · exact adjoint_zero (ssNet P) _ _ _ _ _ (fun _ => rfl) rfl
    · cases n
      case gamma => exact ⟨_, fun v => ard_adjoint (fun i d => fixed0 (P.muC i d)) m v⟩
      all_goals exact adjoint_zero (ssNet P) _ _ _ _ _ (fun _ => rfl) rfl
    · exact adjoint_zero (ssNet P) _ _ _ _ _ (fun _ => rfl) rfl
    · cases n
      case c => exact ⟨_, fun v => dot_adjoint_left (A := Fin P.J) (u SS.tau ()) (chainToGaussian (u SS.x ())) m v⟩
      case x => exact ⟨_, fun v => ss_adjoint_y_x P (u SS.tau ()) (u SS.c) m v⟩
      case tau => exact ⟨_, fun v => dot_adjoint_tau (A := Fin P.J) (B := Fin (P.M + 1)) (fun q => dotMoments (u SS.c q.1) (chainToGaussian (u SS.x ()) q.2)) m v⟩
      all_goals exact adjoint_zero (ssNet P) _ _ _ _ _ (fun _ => rfl) rfl
  mask := by
    intro c' k n u m hm q hq
    change SS at c' n
    cases c'
    · rfl
    · cases n
      · refine sum_msg_zero (fun (i : Fin P.D) (m : (Fin P.D ⊕ Fin P.K) × Fin 4 → ℝ) =>
          wrap0MsgT (fun j => m (q, j)) (fixed0 (P.muA i q))) (fun i => wrap0MsgT_zero _) m fun i => ?_
        have : ¬(0 < P.D ∧ 0 < P.M ∧ ∃ i j, P.mask i j = true) := of_decide_eq_false hq
        exact hm i (decide_eq_false fun h => this ⟨i.pos, h⟩)
      all_goals rfl
    · change Fin 3 at k
      match k with
      | 0 => rfl
      | 2 => rfl
      | 1 =>
        cases n
        · rfl
        · have : ¬(0 < P.M ∧ ∃ i j, P.mask i j = true) := of_decide_eq_false hq
          change dynMsg (m ()) q = 0
          by_cases hM : P.M = 0
          · exact dynMsg_empty hM _ _
          · have e : m () = 0 := hm () (decide_eq_false fun h => this ⟨by omega, h⟩)
            exact (congrArg (fun w => dynMsg w q) e).trans (dynMsg_zero q)
        all_goals rfl
    · rfl
    · cases n
      case gamma =>
        refine sum_msg_zero (fun (i : Fin P.J) (m : Fin P.D × Fin 4 → ℝ) =>
          wrap0MsgT (fun j => m (q, j)) (fixed0 (P.muC i q))) (fun i => wrap0MsgT_zero _) m fun i => ?_
        have : ¬∃ i j, P.mask i j = true := of_decide_eq_false hq
        exact hm i (decide_eq_false fun ⟨j, hj⟩ => this ⟨i, j, hj⟩)
      all_goals rfl
    · rfl
    · have hz : ∀ i j, P.mask i j = false → m (i, j) = 0 := fun i j h => hm (i, j) h
      cases n
      case c =>
        have : ¬∃ j, P.mask q j = true := of_decide_eq_false hq
        exact sum_msg_zero (fun (j : Fin (P.M + 1)) (m : Fin 4 → ℝ) =>
          dotMsg (wrap0MsgX m (u SS.tau ())) (chainToGaussian (u SS.x ()) j))
          (fun _ => dotMsg_wrap_zero _ _) (fun j => m (q, j)) fun j =>
            hz q j (by simpa using fun h => this ⟨j, h⟩)
      case x =>
        have : ¬∃ i j, P.mask i j = true := of_decide_eq_false hq
        have e : ∀ n, ∑ i : Fin P.J, dotMsg (wrap0MsgX (m (i, n)) (u SS.tau ())) (u SS.c i) = 0 := fun n => sum_msg_zero (fun (i : Fin P.J) (m : Fin 4 → ℝ) => dotMsg (wrap0MsgX m (u SS.tau ())) (u SS.c i))
          (fun _ => dotMsg_wrap_zero _ _) (fun i => m (i, n)) fun i =>
            hz i n (by simpa using fun h => this ⟨i, n, h⟩)
        change chainToGaussianMsg (fun n => ∑ i : Fin P.J, dotMsg (wrap0MsgX (m (i, n)) (u SS.tau ())) (u SS.c i)) = 0
        simp only [e]
        exact chainToGaussianMsg_zero
      case tau =>
        have : ¬∃ i j, P.mask i j = true := of_decide_eq_false hq
        exact sum_msg_zero (fun (p : Fin P.J × Fin (P.M + 1)) (m : Fin 4 → ℝ) =>
          wrap0MsgT m (dotMoments (u SS.c p.1) (chainToGaussian (u SS.x ()) p.2))) (fun p => wrap0MsgT_zero _) m fun p =>
            hz p.1 p.2 (by simpa using fun h => this ⟨p.1, p.2, h⟩)
      all_goals rfl

theorem ss_sum (f : SS → ℝ) : ∑ n, f n = f .alpha + f .a + f .x + f .gamma + f .c + f .tau + f .y := by
  have : (Finset.univ : Finset SS) = {.alpha, .a, .x, .gamma, .c, .tau, .y} := rfl
  rw [this]
  simp [Finset.sum_insert]
  ring

/-- what the children send -/
noncomputable def ssFrom (s : (ssNet P).State) (c' n : SS) (q : ssPlate P n) (j : (ssFam P n).I) : ℝ :=
  ∑ k, (ssNet P).back c' k n s.u ((ssNet P).message c' k s.u) q j

theorem ss_new (s : (ssNet P).State) (n : SS) (q : ssPlate P n) (j : (ssFam P n).I) :
    (ssNet P).newPhi n s q j = (ssFam P n).phiP ((ssNet P).parents n s.u q) j
      + (ssFrom P s .a n q j + ssFrom P s .x n q j + ssFrom P s .c n q j + ssFrom P s .y n q j) := by
  have e : (ssNet P).newPhi n s q j = 1 * (((ssFam P n).phiP ((ssNet P).parents n s.u q) j + 0)
      + ∑ c' : SS, ssFrom P s c' n q j) := rfl
  rw [e, ss_sum]
  have h0 : ssFrom P s .alpha n q j = 0 := Finset.sum_eq_zero fun _ _ => rfl
  have h1 : ssFrom P s .gamma n q j = 0 := Finset.sum_eq_zero fun _ _ => rfl
  have h2 : ssFrom P s .tau n q j = 0 := Finset.sum_eq_zero fun _ _ => rfl
  rw [h0, h1, h2]
  ring

/-- the messages of the observations -/
noncomputable def ssMsgY (s : (ssNet P).State) (p : Fin P.J × Fin (P.M + 1)) : Fin 4 → ℝ :=
  fun i => if P.mask p.1 p.2 = true then ard0Msg (s.u SS.y p) i else 0

/-- the message of the chain to the dynamics -/
noncomputable def ssMsgX (s : (ssNet P).State) : DynIx P.M P.D (Fin P.K) → ℝ :=
  fun i => if ssMask P .x () = true then gmcMsg1 (s.u SS.x ()) (inpFixed P.z) i else 0

theorem ss_zero (s : (ssNet P).State) (c' n : SS) (q : ssPlate P n) (j : (ssFam P n).I)
    (h : ∀ k, (ssNet P).back c' k n s.u ((ssNet P).message c' k s.u) q j = 0) : ssFrom P s c' n q j = 0 :=
  Finset.sum_eq_zero fun k _ => h k

theorem ss_zero_x (s : (ssNet P).State) (n : SS) (hn : n ≠ .a) (q : ssPlate P n) (j : (ssFam P n).I) :
    ssFrom P s .x n q j = 0 := by
  refine ss_zero P s .x n q j fun k => ?_
  change Fin 3 at k
  match k with
  | 0 => rfl
  | 2 => rfl
  | 1 => cases n <;> first | rfl | exact absurd rfl hn

theorem ss_new_x (s : (ssNet P).State) :
    (ssNet P).newPhi SS.x s () = gmcPhi (ssInitial P) (dynSym (unitDyn fun _ d => s.u SS.a d)) (inpFixed P.z)
      + chainToGaussianMsg fun n => ∑ i : Fin P.J, dotMsg (wrap0MsgX (ssMsgY P s (i, n)) (s.u SS.tau ())) (s.u SS.c i) := by
  funext k
  refine (ss_new P s .x () k).trans ?_
  rw [ss_zero P s .a .x () k fun _ => rfl, ss_zero_x P s .x (by simp) () k, ss_zero P s .c .x () k fun _ => rfl]
  have h4 : ssFrom P s .y .x () k
      = (chainToGaussianMsg fun n => ∑ i : Fin P.J, dotMsg (wrap0MsgX (ssMsgY P s (i, n)) (s.u SS.tau ())) (s.u SS.c i)) k :=
    Fintype.sum_unique (ι := Unit) _
  rw [h4, add_zero, add_zero, zero_add]
  rfl

theorem ss_new_c (s : (ssNet P).State) (i : Fin P.J) :
    (ssNet P).newPhi SS.c s i = ardPhi (fun d : Fin P.D × Fin 4 => wrap0 (fixed0 (P.muC i d.1)) (s.u SS.gamma d.1) d.2)
      + ∑ n : Fin (P.M + 1), dotMsg (wrap0MsgX (ssMsgY P s (i, n)) (s.u SS.tau ())) (chainToGaussian (s.u SS.x ()) n) := by
  funext k
  refine (ss_new P s .c i k).trans ?_
  rw [ss_zero P s .a .c i k fun _ => rfl, ss_zero_x P s .c (by simp) i k, ss_zero P s .c .c i k fun _ => rfl]
  have h4 : ssFrom P s .y .c i k = (∑ n : Fin (P.M + 1),
      dotMsg (wrap0MsgX (ssMsgY P s (i, n)) (s.u SS.tau ())) (chainToGaussian (s.u SS.x ()) n)) k :=
    Fintype.sum_unique (ι := Unit) _
  rw [h4, add_zero, add_zero, zero_add]
  rfl

theorem ss_new_a (s : (ssNet P).State) (d : Fin P.D) :
    (ssNet P).newPhi SS.a s d
      = ardPhi (fun j : (Fin P.D ⊕ Fin P.K) × Fin 4 => wrap0 (fixed0 (P.muA d j.1)) (s.u SS.alpha j.1) j.2)
        + dynMsg (ssMsgX P s) d := by
  funext k
  refine (ss_new P s .a d k).trans ?_
  rw [ss_zero P s .a .a d k fun _ => rfl, ss_zero P s .c .a d k fun _ => rfl, ss_zero P s .y .a d k fun _ => rfl]
  have h4 : ssFrom P s .x .a d k = dynMsg (ssMsgX P s) d k := by
    have e : ssFrom P s .x .a d k = ∑ j : Fin 3, (ssNet P).back SS.x j SS.a s.u ((ssNet P).message SS.x j s.u) d k := rfl
    rw [e, Fin.sum_univ_three]
    change (0 : ℝ) + _ + 0 = _
    rw [zero_add, add_zero]
    rfl
  rw [h4, add_zero, add_zero, zero_add]
  rfl

theorem ss_new_tau (s : (ssNet P).State) :
    (ssNet P).newPhi SS.tau s () = ![-P.bt, P.at']
      + ∑ p, wrap0MsgT (ssMsgY P s p) (dotMoments (s.u SS.c p.1) (chainToGaussian (s.u SS.x ()) p.2)) := by
  funext k
  refine (ss_new P s .tau () k).trans ?_
  rw [ss_zero P s .a .tau () k fun _ => rfl, ss_zero_x P s .tau (by simp) () k, ss_zero P s .c .tau () k fun _ => rfl]
  have h4 : ssFrom P s .y .tau () k
      = (∑ p, wrap0MsgT (ssMsgY P s p) (dotMoments (s.u SS.c p.1) (chainToGaussian (s.u SS.x ()) p.2))) k :=
    Fintype.sum_unique (ι := Unit) _
  have h5 : gammaPhi (gammaPriorFixed P.at') (gammaFixed P.bt) = ![-P.bt, P.at'] := by
    simp [gammaPhi, gammaPriorFixed, gammaFixed]
  rw [h4, add_zero, add_zero, zero_add, ← h5]
  rfl

theorem ss_new_alpha (s : (ssNet P).State) (j : Fin P.D ⊕ Fin P.K) :
    (ssNet P).newPhi SS.alpha s j = ![-P.bA j, P.aA j] + ∑ d : Fin P.D, wrap0MsgT
      (fun k => if ssMask P .a d = true then ardMsg (s.u SS.a d) (j, k) else 0) (fixed0 (P.muA d j)) := by
  funext k
  refine (ss_new P s .alpha j k).trans ?_
  rw [ss_zero_x P s .alpha (by simp) j k, ss_zero P s .c .alpha j k fun _ => rfl, ss_zero P s .y .alpha j k fun _ => rfl]
  have h4 : ssFrom P s .a .alpha j k = (∑ d : Fin P.D, wrap0MsgT
      (fun k => if ssMask P .a d = true then ardMsg (s.u SS.a d) (j, k) else 0) (fixed0 (P.muA d j))) k :=
    Fintype.sum_unique (ι := Unit) _
  have h5 : gammaPhi (gammaPriorFixed (P.aA j)) (gammaFixed (P.bA j)) = ![-P.bA j, P.aA j] := by
    simp [gammaPhi, gammaPriorFixed, gammaFixed]
  rw [h4, add_zero, add_zero, add_zero, ← h5]
  rfl

theorem ss_new_gamma (s : (ssNet P).State) (d : Fin P.D) :
    (ssNet P).newPhi SS.gamma s d = ![-P.bC d, P.aC d] + ∑ i : Fin P.J, wrap0MsgT
      (fun k => if ssMask P .c i = true then ardMsg (s.u SS.c i) (d, k) else 0) (fixed0 (P.muC i d)) := by
  funext k
  refine (ss_new P s .gamma d k).trans ?_
  rw [ss_zero_x P s .gamma (by simp) d k, ss_zero P s .a .gamma d k fun _ => rfl, ss_zero P s .y .gamma d k fun _ => rfl]
  have h4 : ssFrom P s .c .gamma d k = (∑ i : Fin P.J, wrap0MsgT
      (fun k => if ssMask P .c i = true then ardMsg (s.u SS.c i) (d, k) else 0) (fixed0 (P.muC i d))) k :=
    Fintype.sum_unique (ι := Unit) _
  have h5 : gammaPhi (gammaPriorFixed (P.aC d)) (gammaFixed (P.bC d)) = ![-P.bC d, P.aC d] := by
    simp [gammaPhi, gammaPriorFixed, gammaFixed]
  rw [h4, add_zero, add_zero, zero_add, ← h5]
  rfl

theorem ss_new_y (s : (ssNet P).State) (q : Fin P.J × Fin (P.M + 1)) :
    (ssNet P).newPhi SS.y s q (1 : Fin 2) = -0.5 * (1 * s.u SS.tau () (0 : Fin 2)) := by
  have h1 := ss_zero_x P s .y (by simp) q (1 : Fin 2)
  have h2 := ss_zero P s .a .y q (1 : Fin 2) fun _ => rfl
  have h3 := ss_zero P s .c .y q (1 : Fin 2) fun _ => rfl
  have h4 := ss_zero P s .y .y q (1 : Fin 2) fun _ => rfl
  refine (ss_new P s .y q (1 : Fin 2)).trans ?_
  refine (congrArg₂ (· + ·) rfl (congrArg₂ (· + ·) (congrArg₂ (· + ·) (congrArg₂ (· + ·) h2 h1) h3) h4)).trans ?_
  change -0.5 * (1 * s.u SS.tau () (0 : Fin 2)) + (0 + 0 + 0 + 0) = _
  ring

/-- The states which the theorem is about: the observed elements of `Y` have the moments of the data; all other elements
have some distribution of their family, with its moments. -/
def Spec.SSState (data : Fin P.J → Fin (P.M + 1) → ℝ) (s : (ssNet P).State) : Prop :=
  (∀ n, Consistent (ssNet P) (ssDom P) n s) ∧
    ∀ i j, P.mask i j = true → s.u SS.y (i, j) = ![data i j, data i j * data i j]

/-- positive hyperparameters -/
def Spec.SSValid : Prop :=
  (∀ j, 0 < P.aA j) ∧ (∀ j, 0 < P.bA j) ∧ P.Lambda0.PosDef ∧ (∀ d, 0 < P.aC d) ∧ (∀ d, 0 < P.bC d) ∧ 0 < P.at' ∧ 0 < P.bt

theorem posDef_ard_add {ι : Type*} [Fintype ι] [DecidableEq ι] (v : ι × Fin 4 → ℝ) (hv : ∀ i, 0 < v (i, 2))
    (m : GIx ι → ℝ) (hm : ((-2 : ℝ) • g1 m).PosSemidef) : ((-2 : ℝ) • g1 (ardPhi v + m)).PosDef := by
  have e : (-2 : ℝ) • g1 (ardPhi v + m) = diagonal (fun i => v (i, 2)) + (-2 : ℝ) • g1 m := by
    ext i j
    rw [Matrix.smul_apply, Matrix.add_apply, Matrix.smul_apply, smul_eq_mul, smul_eq_mul]
    change -2 * (diagonal (fun i => -0.5 * v (i, 2)) i j + g1 m i j) = _
    rw [mul_add]
    congr 1
    rcases eq_or_ne i j with rfl | hne
    · rw [diagonal_apply_eq, diagonal_apply_eq]; ring
    · rw [diagonal_apply_ne _ hne, diagonal_apply_ne _ hne, mul_zero]
  rw [e]
  exact (PosDef.diagonal hv).add_posSemidef hm

theorem dots_posSemidef {ι A : Type*} [Fintype ι] [Fintype A] (m : A → Fin 2 → ℝ) (hm : ∀ a, m a 1 ≤ 0)
    (u : A → GIx ι → ℝ) (hu : ∀ a, SecondMoment (u a)) : ((-2 : ℝ) • g1 (∑ a, dotMsg (m a) (u a))).PosSemidef := by
  have e : (-2 : ℝ) • g1 (∑ a, dotMsg (m a) (u a)) = ∑ a, (-2 * m a 1) • g1 (u a) := by
    ext i j
    have h1 : g1 (∑ a, dotMsg (m a) (u a)) i j = ∑ a, m a 1 * g1 (u a) i j := by
      change (∑ a, dotMsg (m a) (u a)) (.inr (i, j)) = _
      rw [Finset.sum_apply]
      rfl
    rw [Matrix.smul_apply, h1, Matrix.sum_apply, smul_eq_mul, Finset.mul_sum]
    exact Finset.sum_congr rfl fun a _ => by rw [Matrix.smul_apply, smul_eq_mul]; ring
  rw [e]
  exact posSemidef_sum _ fun a _ => (hu a).posSemidef.smul (by have := hm a; linarith)

section
variable {P}
variable {s : (ssNet P).State} (hs : ∀ n, Consistent (ssNet P) (ssDom P) n s)
include hs

theorem ss_tau_pos : 0 < s.u SS.tau () (0 : Fin 2) := by
  obtain ⟨dt, ut, -⟩ := hs SS.tau () rfl
  have ut' : s.u SS.tau () = gammaMoments (s.phi SS.tau ()) := ut
  rw [ut']
  exact div_pos dt.2 (neg_pos.2 dt.1)

theorem ss_alpha_pos (j : Fin P.D ⊕ Fin P.K) : 0 < s.u SS.alpha j (0 : Fin 2) := by
  obtain ⟨dt, ut, -⟩ := hs SS.alpha j rfl
  have ut' : s.u SS.alpha j = gammaMoments (s.phi SS.alpha j) := ut
  rw [ut']
  exact div_pos dt.2 (neg_pos.2 dt.1)

theorem ss_gamma_pos (d : Fin P.D) : 0 < s.u SS.gamma d (0 : Fin 2) := by
  obtain ⟨dt, ut, -⟩ := hs SS.gamma d rfl
  have ut' : s.u SS.gamma d = gammaMoments (s.phi SS.gamma d) := ut
  rw [ut']
  exact div_pos dt.2 (neg_pos.2 dt.1)

theorem ss_second_a (d : Fin P.D) : SecondMoment (ι := Fin P.D ⊕ Fin P.K) (s.u SS.a d) := by
  obtain ⟨h, e, -⟩ := hs SS.a d rfl
  have e' : s.u SS.a d = gaussianMoments (s.phi SS.a d) := e
  rw [e']
  exact secondMoment_gaussian _ h

theorem ss_second_c (i : Fin P.J) : SecondMoment (ι := Fin P.D) (s.u SS.c i) := by
  obtain ⟨h, e, -⟩ := hs SS.c i rfl
  have e' : s.u SS.c i = gaussianMoments (s.phi SS.c i) := e
  rw [e']
  exact secondMoment_gaussian _ h

theorem ss_second_x (n : Fin (P.M + 1)) : SecondMoment (chainToGaussian (s.u SS.x ()) n) := by
  obtain ⟨h, e, -⟩ := hs SS.x () rfl
  have e' : s.u SS.x () = gmcMoments (s.phi SS.x ()) := e
  rw [e']
  exact secondMoment_chain _ h n

theorem ss_msg_prec (p : Fin P.J × Fin (P.M + 1)) : wrap0MsgX (ssMsgY P s p) (s.u SS.tau ()) 1 ≤ 0 := by
  have e : wrap0MsgX (ssMsgY P s p) (s.u SS.tau ()) 1 = ssMsgY P s p 1 * s.u SS.tau () (0 : Fin 2) := rfl
  rw [e]
  refine mul_nonpos_of_nonpos_of_nonneg ?_ (ss_tau_pos hs).le
  unfold ssMsgY
  split
  · have : ard0Msg (s.u SS.y p) 1 = -0.5 := rfl
    rw [this]; norm_num
  · exact le_refl _

theorem ss_dyn_symm : DynSymm (M := P.M) (unitDyn fun _ d => s.u SS.a d) := by
  intro m d i k
  change g1 (ι := Fin P.D ⊕ Fin P.K) (s.u SS.a d) _ _ * 1 = g1 (ι := Fin P.D ⊕ Fin P.K) (s.u SS.a d) _ _ * 1
  rw [((ss_second_a hs d).posSemidef.isHermitian.apply (.inl i) (.inr k)).symm]
  rfl

end

/-- the precisions of a Gaussian node get valid parameters -/
theorem ard_rate {ι : Type*} [Fintype ι] (b : Bool) (u : GIx ι → ℝ) (hu : SecondMoment u) (mu : ℝ) (d : ι) :
    wrap0MsgT (fun k => if b = true then ardMsg u (d, k) else 0) (fixed0 mu) 0 ≤ 0 ∧
    0 ≤ wrap0MsgT (fun k => if b = true then ardMsg u (d, k) else 0) (fixed0 mu) 1 := by
  constructor
  · refine wrapT_nonpos _ _ (ardMsg u ⟨d, ·⟩) fun _ => ?_
    obtain ⟨C, hC, e⟩ := hu
    have e1 : g1 u d d = C d d + g0 u d * g0 u d := by rw [e]; rfl
    have := square_msg (g0 u d) mu (C d d) 0 hC.diag_nonneg (le_refl 0)
    rw [← e1] at this
    change g0 u d * mu + -0.5 * (mu * mu) + -0.5 * g1 u d d ≤ 0
    linarith
  · exact wrapT_one _ _ (ardMsg u ⟨d, ·⟩) (by change (0 : ℝ) ≤ 0.5; norm_num)

theorem ss_valid (data : Fin P.J → Fin (P.M + 1) → ℝ) (hP : SSValid P) (s : (ssNet P).State)
    (hs : SSState P data s) (n : SS) (q : ssPlate P n) : (ssNet P).newPhi n s q ∈ ssDom P n := by
  obtain ⟨hc, hy⟩ := hs
  obtain ⟨ha, hb, hL, hac, hbc, hat, hbt⟩ := hP
  cases n
  · rw [show (ssNet P).newPhi SS.alpha s q = _ from ss_new_alpha P s q]
    exact gamma_new (hb q) (ha q) _ (fun d => (ard_rate _ _ (ss_second_a hc d) _ _).1)
      fun d => (ard_rate _ _ (ss_second_a hc d) _ _).2
  · rw [show (ssNet P).newPhi SS.a s q = _ from ss_new_a P s q]
    refine posDef_ard_add _ (fun j => ?_) _ ?_
    · change 0 < 1 * s.u SS.alpha j (0 : Fin 2)
      rw [one_mul]
      exact ss_alpha_pos hc j
    · by_cases hm : ssMask P .x () = true
      · have e : ssMsgX P s = gmcMsg1 (s.u SS.x ()) (inpFixed P.z) := funext fun i => if_pos hm
        rw [e]
        exact dynMsg_posSemidef _ (ss_second_x hc) _ _
      · have e : ssMsgX P s = 0 := funext fun i => if_neg hm
        rw [e, show dynMsg (0 : DynIx P.M P.D (Fin P.K) → ℝ) q = 0 from dynMsg_zero (D := P.D) q]
        have : (-2 : ℝ) • g1 (0 : GIx (Fin P.D ⊕ Fin P.K) → ℝ) = 0 := smul_zero _
        rw [this]
        exact PosSemidef.zero
  · rw [show (ssNet P).newPhi SS.x s q = _ from ss_new_x P s]
    change ((-2 : ℝ) • g1 (gmcFull _)).PosDef
    rw [dynSym_eq _ _ _ _ (ss_dyn_symm hc), gmcFull_add]
    have e : ∀ A B : GIx (Fin (P.M + 1) × Fin P.D) → ℝ, (-2 : ℝ) • g1 (A + B) = (-2 : ℝ) • g1 A + (-2 : ℝ) • g1 B :=
      fun A B => smul_add _ _ _
    rw [e]
    refine PosDef.add_posSemidef (gmcPhi_posDef _ ?_ _ (fun _ d => ss_second_a hc d) _) (gmcFull_message _ fun n => ?_)
    · rw [ssInitial, fixedParent]
      exact hL
    · exact dots_posSemidef _ (fun i => ss_msg_prec hc (i, n)) _ (ss_second_c hc)
  · rw [show (ssNet P).newPhi SS.gamma s q = _ from ss_new_gamma P s q]
    exact gamma_new (hbc q) (hac q) _ (fun d => (ard_rate _ _ (ss_second_c hc d) _ _).1)
      fun d => (ard_rate _ _ (ss_second_c hc d) _ _).2
  · rw [show (ssNet P).newPhi SS.c s q = _ from ss_new_c P s q]
    refine posDef_ard_add _ (fun d => ?_) _ (dots_posSemidef _ (fun n => ss_msg_prec hc (q, n)) _ (ss_second_x hc))
    change 0 < 1 * s.u SS.gamma d (0 : Fin 2)
    rw [one_mul]
    exact ss_gamma_pos hc d
  · rw [show (ssNet P).newPhi SS.tau s q = _ from ss_new_tau P s]
    refine gamma_new hbt hat _ (fun p => ?_) fun p => ?_
    · refine wrapT_nonpos (P.mask p.1 p.2) _ (ard0Msg (s.u SS.y p)) fun hm => ?_
      have h := dotMoments_variance (ss_second_c hc p.1) (ss_second_x hc p.2)
      have e : s.u SS.y p = (![data p.1 p.2, data p.1 p.2 * data p.1 p.2] : Fin 2 → ℝ) := hy p.1 p.2 hm
      rw [e]
      generalize dotMoments (ι := Fin P.D) (s.u SS.c p.1) (chainToGaussian (s.u SS.x ()) p.2) = w at h ⊢
      change data p.1 p.2 * w 0 + -0.5 * w 1 + -0.5 * (data p.1 p.2 * data p.1 p.2) ≤ 0
      have := square_msg (data p.1 p.2) (w 0) 0 (w 1 - w 0 * w 0) (le_refl 0) (by linarith)
      linarith
    · exact wrapT_one _ _ (ard0Msg (s.u SS.y p)) (by change (0 : ℝ) ≤ 0.5; norm_num)
  · have hpos := ss_tau_pos hc
    change (ssNet P).newPhi SS.y s q (1 : Fin 2) < 0
    rw [show (ssNet P).newPhi SS.y s q (1 : Fin 2) = -0.5 * (1 * s.u SS.tau () (0 : Fin 2)) from ss_new_y P s q]
    linarith

theorem ss_update (data : Fin P.J → Fin (P.M + 1) → ℝ) (hP : SSValid P) (s : (ssNet P).State) (hs : SSState P data s)
    (n : SS) : SSState P data ((ssNet P).update n s) := by
  refine ⟨consistent_update (ssNet P) (ssDom P) n s (fun q _ => ss_valid P data hP s hs n q) hs.1, fun i j hm => ?_⟩
  rw [← hs.2 i j hm]
  cases n
  case y => exact if_neg (by rw [show (ssNet P).observed SS.y (i, j) = true from hm]; simp)
  all_goals rfl

/-- **C23** for the linear state-space model: for all data, masks, inputs, hyperparameters, all current distributions and
all sequences of updates, the lower bound never decreases. -/
theorem C23_state_space (data : Fin P.J → Fin (P.M + 1) → ℝ) (hP : SSValid P) (s : (ssNet P).State)
    (hs : SSState P data s) (ns : List SS) :
    (ssNet P).bound s ≤ (ssNet P).bound (ns.foldl (fun s n => (ssNet P).update n s) s) ∧
    SSState P data (ns.foldl (fun s n => (ssNet P).update n s) s) := by
  induction ns generalizing s with
  | nil => exact ⟨le_refl _, hs⟩
  | cons n ns ih =>
    have h1 : (ssNet P).bound s ≤ (ssNet P).bound ((ssNet P).update n s) :=
      C23_update (ssNet P) (ssDom P) (ss_sound P) n s (fun _ => rfl) (hs.1 n) fun q _ => ss_valid P data hP s hs n q
    obtain ⟨h3, h4⟩ := ih _ (ss_update P data hP s hs n)
    exact ⟨h1.trans h3, h4⟩

/-- A state to start from: unit Gaussians with the given means, independent states, and `Gamma(1, 1)`. -/
noncomputable def ssInit (data : Fin P.J → Fin (P.M + 1) → ℝ) (a : Fin P.D → Fin P.D ⊕ Fin P.K → ℝ)
    (x : Fin (P.M + 1) → Fin P.D → ℝ) (c : Fin P.J → Fin P.D → ℝ) : (ssNet P).State where
  phi := fun n => match n with
    | .alpha => fun _ => (![-1, 1] : Fin 2 → ℝ)
    | .a => fun i => mkG (a i) (-(1 / 2 : ℝ) • (1 : Matrix (Fin P.D ⊕ Fin P.K) (Fin P.D ⊕ Fin P.K) ℝ))
    | .x => fun _ => mkC x (fun _ => -(1 / 2 : ℝ) • (1 : Matrix (Fin P.D) (Fin P.D) ℝ)) fun _ => 0
    | .gamma => fun _ => (![-1, 1] : Fin 2 → ℝ)
    | .c => fun i => mkG (c i) (-(1 / 2 : ℝ) • (1 : Matrix (Fin P.D) (Fin P.D) ℝ))
    | .tau => fun _ => (![-1, 1] : Fin 2 → ℝ)
    | .y => fun _ => (![0, -1 / 2] : Fin 2 → ℝ)
  u := fun n => match n with
    | .alpha => fun _ => gammaMoments ![-1, 1]
    | .a => fun i => gaussianMoments (mkG (a i) (-(1 / 2 : ℝ) • (1 : Matrix (Fin P.D ⊕ Fin P.K) (Fin P.D ⊕ Fin P.K) ℝ)))
    | .x => fun _ => gmcMoments (mkC x (fun _ => -(1 / 2 : ℝ) • (1 : Matrix (Fin P.D) (Fin P.D) ℝ)) fun _ => 0)
    | .gamma => fun _ => gammaMoments ![-1, 1]
    | .c => fun i => gaussianMoments (mkG (c i) (-(1 / 2 : ℝ) • (1 : Matrix (Fin P.D) (Fin P.D) ℝ)))
    | .tau => fun _ => gammaMoments ![-1, 1]
    | .y => fun q => if P.mask q.1 q.2 = true then (![data q.1 q.2, data q.1 q.2 * data q.1 q.2] : Fin 2 → ℝ)
        else ardMoments0 ![0, -1 / 2]
  g := fun n => match n with
    | .alpha => fun _ => gammaCgf ![-1, 1]
    | .a => fun i => gaussianCgf (mkG (a i) (-(1 / 2 : ℝ) • (1 : Matrix (Fin P.D ⊕ Fin P.K) (Fin P.D ⊕ Fin P.K) ℝ)))
    | .x => fun _ => gmcCgf (mkC x (fun _ => -(1 / 2 : ℝ) • (1 : Matrix (Fin P.D) (Fin P.D) ℝ)) fun _ => 0)
    | .gamma => fun _ => gammaCgf ![-1, 1]
    | .c => fun i => gaussianCgf (mkG (c i) (-(1 / 2 : ℝ) • (1 : Matrix (Fin P.D) (Fin P.D) ℝ)))
    | .tau => fun _ => gammaCgf ![-1, 1]
    | .y => fun _ => ardCgf0 ![0, -1 / 2]
  f := fun _ _ => 0

theorem chain_unit_posDef (M D : Nat) (x : Fin (M + 1) → Fin D → ℝ) :
    ((-2 : ℝ) • g1 (gmcFull (mkC x (fun _ => -(1 / 2 : ℝ) • (1 : Matrix (Fin D) (Fin D) ℝ)) fun _ => 0 : GMCIx M D → ℝ))).PosDef := by
  have : (-2 : ℝ) • g1 (gmcFull (mkC x (fun _ => -(1 / 2 : ℝ) • (1 : Matrix (Fin D) (Fin D) ℝ)) fun _ => 0 : GMCIx M D → ℝ)) = 1 := by
    ext ⟨p1, p2⟩ ⟨q1, q2⟩
    change -2 * (if p1 = q1 then -(1 / 2 : ℝ) * (1 : Matrix (Fin D) (Fin D) ℝ) p2 q2
      else if h : p1.val + 1 = q1.val then 0.5 * 0 else if h : q1.val + 1 = p1.val then 0.5 * 0 else 0) = _
    by_cases h1 : p1 = q1
    · subst h1
      rw [if_pos rfl]
      by_cases h2 : p2 = q2
      · subst h2
        rw [one_apply_eq, one_apply_eq]
        norm_num
      · rw [one_apply_ne h2, one_apply_ne (by simp [h2])]
        norm_num
    · rw [if_neg h1, one_apply_ne (by simp [h1])]
      split_ifs <;> norm_num
  rw [this]
  exact PosDef.one

theorem ssInit_state (data : Fin P.J → Fin (P.M + 1) → ℝ) (a : Fin P.D → Fin P.D ⊕ Fin P.K → ℝ)
    (x : Fin (P.M + 1) → Fin P.D → ℝ) (c : Fin P.J → Fin P.D → ℝ) : SSState P data (ssInit P data a x c) := by
  have h1 : ((![-1, 1] : Fin 2 → ℝ)) 0 < 0 ∧ 0 < ((![-1, 1] : Fin 2 → ℝ)) 1 := by norm_num
  have h2 : ∀ (ι : Type) [Fintype ι] [DecidableEq ι], ((-2 : ℝ) • (-(1 / 2 : ℝ) • (1 : Matrix ι ι ℝ))).PosDef := by
    intro ι _ _
    rw [smul_smul]
    norm_num
    exact PosDef.one
  refine ⟨?_, fun i j hm => if_pos hm⟩
  intro n q ho
  change SS at n
  cases n
  · exact ⟨h1, rfl, rfl⟩
  · exact ⟨h2 _, rfl, rfl⟩
  · exact ⟨chain_unit_posDef P.M P.D x, rfl, rfl⟩
  · exact ⟨h1, rfl, rfl⟩
  · exact ⟨h2 _, rfl, rfl⟩
  · exact ⟨h1, rfl, rfl⟩
  · refine ⟨?_, ?_, rfl⟩
    · change (![0, -1 / 2] : Fin 2 → ℝ) 1 < 0
      norm_num
    · exact if_neg (by rw [show P.mask q.1 q.2 = false from ho]; simp)

/-- five time instances, two states, one input, three rows, one value missing -/
noncomputable def exSS : SSParams where
  M := 4
  D := 2
  K := 1
  J := 3
  aA := fun _ => 1
  bA := fun _ => 1
  muA := fun _ _ => 0
  mu0 := fun _ => 0
  Lambda0 := 1
  z := fun _ _ => 1
  aC := fun _ => 1
  bC := fun _ => 1
  muC := fun _ _ => 0
  at' := 1
  bt := 1
  mask := fun i j => !(decide (i = 0) && decide (j = 0))

theorem exSS_valid : SSValid exSS :=
  ⟨fun _ => one_pos, fun _ => one_pos, PosDef.one, fun _ => one_pos, fun _ => one_pos, one_pos, one_pos⟩

example : (ssNet exSS).bound (ssInit exSS (fun i j => i + j) (fun _ _ => 1) (fun _ _ => 0) fun _ _ => 1)
    ≤ (ssNet exSS).bound ((ssNet exSS).update SS.tau ((ssNet exSS).update SS.a ((ssNet exSS).update SS.x
      (ssInit exSS (fun i j => i + j) (fun _ _ => 1) (fun _ _ => 0) fun _ _ => 1)))) :=
  (C23_state_space exSS (fun i j => i + j) exSS_valid _ (ssInit_state exSS _ _ _ _) [SS.x, SS.a, SS.tau]).1

end Verif
