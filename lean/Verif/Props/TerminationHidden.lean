import Verif.Props.TerminationMixture
import Verif.Props.HiddenMarkov

/-!
# C91 for the hidden Markov model
-/

namespace Verif
open Spec Filter Topology Matrix

section
variable {D N : ℕ}

/-- the paths of a chain whose rows have sums of at most one -/
theorem path_sum_le (A : Fin D → Fin D → ℝ) (hA : ∀ i j, 0 ≤ A i j) (hA1 : ∀ i, ∑ j, A i j ≤ 1) :
    ∀ (N : ℕ) (a : Fin D → ℝ), (∀ i, 0 ≤ a i) →
      ∑ z : Fin (N + 1) → Fin D, a (z 0) * ∏ n : Fin N, A (z n.castSucc) (z n.succ) ≤ ∑ i, a i := by
  intro N
  induction N with
  | zero =>
    intro a _
    simp only [Finset.univ_eq_empty, Finset.prod_empty, mul_one]
    refine le_of_eq ?_
    exact (Equiv.funUnique (Fin 1) (Fin D)).sum_comp a
  | succ N ih =>
    intro a ha
    have e : ∑ z : Fin (N + 2) → Fin D, a (z 0) * ∏ n : Fin (N + 1), A (z n.castSucc) (z n.succ)
        = ∑ z : Fin (N + 1) → Fin D, (∑ c, a c * A c (z 0)) * ∏ n : Fin N, A (z n.castSucc) (z n.succ) := by
      rw [← (Fin.consEquiv fun _ : Fin (N + 2) => Fin D).sum_comp, Fintype.sum_prod_type, Finset.sum_comm]
      refine Finset.sum_congr rfl fun z _ => ?_
      rw [Finset.sum_mul]
      refine Finset.sum_congr rfl fun c _ => ?_
      rw [Fin.prod_univ_succ, mul_assoc]
      rfl
    rw [e]
    refine (ih (fun j => ∑ c, a c * A c j) fun j => Finset.sum_nonneg fun c _ => mul_nonneg (ha c) (hA c j)).trans ?_
    rw [Finset.sum_comm]
    refine Finset.sum_le_sum fun c _ => ?_
    rw [← Finset.mul_sum]
    exact mul_le_of_le_one_right (ha c) (hA1 c)

/-- the normaliser of a chain whose parameters are expected logarithms of probabilities -/
theorem cmc_prior_cgf (hD : 0 < D) (hN : 0 < N) (p : Fin D → ℝ) (A : Fin D → Fin D → ℝ) (hp : ∑ i, Real.exp (p i) ≤ 1)
    (hA : ∀ i, ∑ j, Real.exp (A i j) ≤ 1) : 0 ≤ cmcCgf (cmcFPhi (N := N) p (hmTransition A)) := by
  rw [C22_categorical_chain_normaliser hD hN]
  have e : ∀ z : Fin (N + 1) → Fin D, Real.exp (cmcFPhi (N := N) p (hmTransition A) ⬝ᵥ cmcFixed z)
      = Real.exp (p (z 0)) * ∏ n : Fin N, Real.exp (A (z n.castSucc) (z n.succ)) := by
    intro z
    rw [← cmc_weight]
    unfold pathWeight
    refine congrArg₂ (· * ·) ?_ (Finset.prod_congr rfl fun n _ => ?_)
    · simp [potential0, expBot, cmcFPhi]
    · simp [potential, cmcTable, expBot, cmcFPhi, hmTransition]
  simp only [e]
  have h := (path_sum_le (fun i j => Real.exp (A i j)) (fun _ _ => (Real.exp_pos _).le) hA N (fun i => Real.exp (p i))
    fun _ => (Real.exp_pos _).le).trans hp
  have h0 : 0 ≤ ∑ z : Fin (N + 1) → Fin D, Real.exp (p (z 0)) * ∏ n : Fin N, Real.exp (A (z n.castSucc) (z n.succ)) :=
    Finset.sum_nonneg fun z _ => mul_nonneg (Real.exp_pos _).le (Finset.prod_nonneg fun _ _ => (Real.exp_pos _).le)
  exact neg_nonneg.2 (Real.log_nonpos h0 h)

theorem cmc_marginal_sum (hD : 0 < D) (hN : 0 < N) (phi : CatChainIx D N → ℝ) (t : Fin (N + 1)) :
    ∑ c, cmcMarginals (cmcMoments phi) t c = 1 := by
  refine Eq.trans ?_ (C22_categorical_chain_total hD hN phi)
  refine Fin.cases ?_ (fun n => ?_) t
  · change ∑ c, cmcMoments phi (.inl c) = _
    simp only [C22_categorical_chain_moments hD hN]
    rw [Finset.sum_comm]
    refine Finset.sum_congr rfl fun z _ => ?_
    rw [← Finset.sum_mul]
    simp [cmcFixed]
  · change ∑ c, ∑ i, cmcMoments phi (.inr (n, i, c)) = _
    simp only [C22_categorical_chain_moments hD hN]
    have e : ∀ z : Fin (N + 1) → Fin D, ∑ c, ∑ i, cmcFixed z (.inr (n, i, c)) = 1 := by
      intro z
      simp [cmcFixed, ite_and]
    calc ∑ c, ∑ i, ∑ z : Fin (N + 1) → Fin D, cmcFixed z (.inr (n, i, c)) * Real.exp (logpdf (cmcFixed z) phi (cmcCgf phi) 0)
        = ∑ c, ∑ z : Fin (N + 1) → Fin D, ∑ i, cmcFixed z (.inr (n, i, c)) * Real.exp (logpdf (cmcFixed z) phi (cmcCgf phi) 0) :=
          Finset.sum_congr rfl fun c _ => Finset.sum_comm
      _ = ∑ z : Fin (N + 1) → Fin D, (∑ c, ∑ i, cmcFixed z (.inr (n, i, c)))
          * Real.exp (logpdf (cmcFixed z) phi (cmcCgf phi) 0) := by
          rw [Finset.sum_comm]
          simp only [Finset.sum_mul]
      _ = _ := by simp only [e, one_mul]

end

section
variable (P : HMParams)

/-- the number of observed vectors -/
noncomputable def hmCount : ℝ := ∑ i : Fin (P.N + 1), if P.mask i then (1 : ℝ) else 0

/-- the upper bound of the lower bound -/
noncomputable def Spec.hmBound : ℝ :=
  hmCount P * gaussianF P.D + ⨆ c : Fin P.K, max 0 (wishartCgf (mkW ((-0.5 : ℝ) • P.V0 c) (0.5 * P.n0))
    - wishartCgf (mkW ((-0.5 : ℝ) • P.V0 c) (0.5 * P.n0 + hmCount P / 2)))

theorem hm_bound_le (data : Fin (P.N + 1) → Fin P.D → ℝ) (hP : HMValid P) (s : (hmNet P).State) (hs : HMState P data s)
    (hf : ∀ i, P.mask i = true → s.f HM.y i = gaussianF P.D) : (hmNet P).bound s ≤ hmBound P := by
  obtain ⟨hc, hy⟩ := hs
  obtain ⟨hK, hN, hD, ha, hA, hL, hV, hn⟩ := hP
  have hne : Nonempty (Fin P.K) := ⟨⟨0, hK⟩⟩
  have hT : 0 ≤ hmCount P := Finset.sum_nonneg fun q _ => by split <;> norm_num
  have hzp : ∀ i c, 0 < cmcMarginals (N := P.N) (K := P.K) (s.u HM.z ()) i c := fun i c => by
    rw [hm_z_moments P s hc]
    exact cmc_marginal_pos hK hN _ i c
  have hal : (hmNet P).contribution HM.a0 s () ≤ 0 :=
    contribution_prior_le_mult (hm_sound P hK hN) (fun _ => rfl) HM.a0 s (hc HM.a0) () rfl ha
      (le_refl (dirichletCgf P.c0))
  have hrow : ∀ i : Fin P.K, (hmNet P).contribution HM.A s i ≤ 0 := fun i =>
    contribution_prior_le_mult (hm_sound P hK hN) (fun _ => rfl) HM.A s (hc HM.A) i rfl (hA i)
      (le_refl (dirichletCgf (P.C i)))
  have hz : (hmNet P).contribution HM.z s () ≤ 0 := by
    have h0 : ∑ c : Fin P.K, Real.exp ((s.u HM.a0 () : Fin P.K → ℝ) c) ≤ 1 := by
      obtain ⟨d, e, -⟩ := hc HM.a0 () rfl
      have e' : s.u HM.a0 () = dirichletMoments (ι := Fin P.K) (s.phi HM.a0 ()) := e
      rw [e']
      exact dirichlet_exp_sum (ι := Fin P.K) (s.phi HM.a0 ()) d
    have h1 : ∀ i : Fin P.K, ∑ c : Fin P.K, Real.exp ((s.u HM.A i : Fin P.K → ℝ) c) ≤ 1 := by
      intro i
      obtain ⟨d, e, -⟩ := hc HM.A i rfl
      have e' : s.u HM.A i = dirichletMoments (ι := Fin P.K) (s.phi HM.A i) := e
      rw [e']
      exact dirichlet_exp_sum (ι := Fin P.K) (s.phi HM.A i) d
    have h2 := cmc_prior_cgf hK hN (s.u HM.a0 () : Fin P.K → ℝ) (fun i => (s.u HM.A i : Fin P.K → ℝ)) h0 h1
    exact contribution_prior_le_mult (hm_sound P hK hN) (fun _ => rfl) HM.z s (hc HM.z) () rfl (Set.mem_univ _) h2
  have hmu : ∀ c : Fin P.K, (hmNet P).contribution HM.mu s c ≤ 0 := by
    intro c
    obtain ⟨p1, p2⟩ := gaussian_prior_cgf (P.mu0 c) (P.L0 c) (hL c)
    exact contribution_prior_le_mult (hm_sound P hK hN) (fun _ => rfl) HM.mu s (hc HM.mu) c rfl p1 p2.le
  have hlam : ∀ (c : Fin P.K) (k : ℝ), 0 ≤ k → (hmNet P).contribution HM.lam s c ≤
      wishartCgf (mkW ((-0.5 : ℝ) • P.V0 c) (0.5 * P.n0)) - wishartCgf (mkW ((-0.5 : ℝ) • P.V0 c) (0.5 * P.n0 + k / 2))
        - k / 2 * w1 (ι := Fin P.D) (s.u HM.lam c) := by
    intro c k hk
    have hw := wishart_tilt P.n0 k (P.V0 c) (hV c) (s.u HM.lam c)
    rw [Fintype.card_fin] at hw
    have hd : (-w0 (mkW ((-0.5 : ℝ) • P.V0 c) (0.5 * P.n0 + k / 2))).PosDef ∧
        ((Fintype.card (Fin P.D) : ℝ) - 1) / 2 < w1 (mkW ((-0.5 : ℝ) • P.V0 c) (0.5 * P.n0 + k / 2)) := by
      constructor
      · have e : -w0 (mkW ((-0.5 : ℝ) • P.V0 c) (0.5 * P.n0 + k / 2)) = (0.5 : ℝ) • P.V0 c := by
          ext i j
          change -(-0.5 * P.V0 c i j) = 0.5 * P.V0 c i j
          ring
        rw [e]
        exact (hV c).smul (by norm_num)
      · rw [Fintype.card_fin]
        change _ < 0.5 * P.n0 + k / 2
        linarith
    exact (contribution_le_mult (hm_sound P hK hN) (fun _ => rfl) HM.lam s (hc HM.lam) c rfl
      (mkW ((-0.5 : ℝ) • P.V0 c) (0.5 * P.n0 + k / 2)) hd).trans_eq hw
  have hlam0 : ∀ c : Fin P.K, (hmNet P).contribution HM.lam s c ≤ 0 := by
    intro c
    refine (hlam c 0 (le_refl _)).trans_eq ?_
    rw [zero_div, add_zero, zero_mul, sub_self, sub_zero]
  have hyy : ∀ i : Fin (P.N + 1), P.mask i = true → (hmNet P).contribution HM.y s i
      ≤ gaussianF P.D + ∑ c : Fin P.K, cmcMarginals (N := P.N) (K := P.K) (s.u HM.z ()) i c * (1 / 2 * w1 (ι := Fin P.D) (s.u HM.lam c)) := by
    intro i hm
    have ec := Net.contribution_eq (G := hmNet P) HM.y s i
    have e : s.u HM.y i = gaussianFixed (data i) := hy i hm
    rw [show (hmNet P).observed HM.y i = true from hm, if_pos rfl, show s.f HM.y i = gaussianF P.D from hf i hm, e] at ec
    have e1 : ∀ v : Fin P.K → GWIx (Fin P.D) → ℝ, ∀ z : Fin P.K → ℝ,
        (fun j => ∑ c, z c * gaussianPhi (v c) j) ⬝ᵥ gaussianFixed (data i) + ∑ c, z c * gaussianCgfP (v c)
          = ∑ c, z c * (gaussianPhi (v c) ⬝ᵥ gaussianFixed (data i) + gaussianCgfP (v c)) := by
      intro v z
      simp only [mul_add, Finset.sum_add_distrib]
      congr 1
      simp only [dotProduct, Finset.sum_mul, Finset.mul_sum]
      rw [Finset.sum_comm]
      exact Finset.sum_congr rfl fun c _ => Finset.sum_congr rfl fun j _ => mul_assoc _ _ _
    have h2 : ∑ c : Fin P.K, cmcMarginals (N := P.N) (K := P.K) (s.u HM.z ()) i c *
        (gaussianPhi (wrapGW (toGaussianGamma (s.u HM.mu c)) (s.u HM.lam c)) ⬝ᵥ gaussianFixed (data i)
          + gaussianCgfP (ι := Fin P.D) (wrapGW (toGaussianGamma (s.u HM.mu c)) (s.u HM.lam c)))
        ≤ ∑ c : Fin P.K, cmcMarginals (N := P.N) (K := P.K) (s.u HM.z ()) i c * (1 / 2 * w1 (ι := Fin P.D) (s.u HM.lam c)) :=
      Finset.sum_le_sum fun c _ => mul_le_mul_of_nonneg_left
        (vector_le (data i) _ (hm_second_mu P s hc c) _ (hm_lam_posDef P hD s hc c)) (hzp i c).le
    rw [ec, add_comm]
    exact add_le_add_right (le_of_eq_of_le (e1 _ _) h2) _
  have hz1 : ∀ i : Fin (P.N + 1), ∑ c : Fin P.K, cmcMarginals (N := P.N) (K := P.K) (s.u HM.z ()) i c = 1 := by
    intro i
    rw [hm_z_moments P s hc]
    exact cmc_marginal_sum hK hN _ i
  have hz' : ∀ {A : Type} [Fintype A] (m : A → Bool) (c : A → ℝ), (∀ a, c a ≤ 0) → ∑ a, (if m a then c a else 0) ≤ 0 :=
    fun m c hc => Finset.sum_nonpos fun a _ => by split <;> [exact hc a; exact le_refl 0]
  have e : (hmNet P).bound s
      = (if (hmNet P).mask HM.a0 () = true then (hmNet P).contribution HM.a0 s () else 0)
        + (∑ d : Fin P.K, if (hmNet P).mask HM.A d then (hmNet P).contribution HM.A s d else 0)
        + (if (hmNet P).mask HM.z () = true then (hmNet P).contribution HM.z s () else 0)
        + (∑ d : Fin P.K, if (hmNet P).mask HM.mu d then (hmNet P).contribution HM.mu s d else 0)
        + (∑ d : Fin P.K, if (hmNet P).mask HM.lam d then (hmNet P).contribution HM.lam s d else 0)
        + ∑ q : Fin (P.N + 1), (if P.mask q then (hmNet P).contribution HM.y s q else 0) := by
    refine (hm_sum _).trans ?_
    refine congrArg₂ (· + ·) (congrArg₂ (· + ·) (congrArg₂ (· + ·) (congrArg₂ (· + ·) (congrArg₂ (· + ·) ?_ rfl) ?_) rfl) rfl) rfl
    · exact Fintype.sum_unique (ι := Unit) _
    · exact Fintype.sum_unique (ι := Unit) _
  have z1 : (if (hmNet P).mask HM.a0 () = true then (hmNet P).contribution HM.a0 s () else 0) ≤ 0 := by
    split
    · exact hal
    · exact le_refl 0
  have z0 : (if (hmNet P).mask HM.z () = true then (hmNet P).contribution HM.z s () else 0) ≤ 0 := by
    split
    · exact hz
    · exact le_refl 0
  have z2 := hz' (fun d : Fin P.K => (hmNet P).mask HM.A d) (fun d : Fin P.K => (hmNet P).contribution HM.A s d) hrow
  have z3 := hz' (fun d : Fin P.K => (hmNet P).mask HM.mu d) (fun d : Fin P.K => (hmNet P).contribution HM.mu s d) hmu
  have z5 : ∑ q : Fin (P.N + 1), (if P.mask q then (hmNet P).contribution HM.y s q else 0)
      ≤ ∑ q : Fin (P.N + 1), (if P.mask q then gaussianF P.D
        + ∑ c : Fin P.K, cmcMarginals (N := P.N) (K := P.K) (s.u HM.z ()) q c * (1 / 2 * w1 (ι := Fin P.D) (s.u HM.lam c)) else 0) := by
    refine Finset.sum_le_sum fun q _ => ?_
    by_cases hm : P.mask q = true
    · rw [if_pos hm, if_pos hm]
      exact hyy q hm
    · rw [if_neg hm, if_neg hm]
  have z4 := share_le (A := Fin (P.N + 1)) (B := Fin P.K) P.mask (fun i => cmcMarginals (N := P.N) (K := P.K) (s.u HM.z ()) i) hzp hz1 (hmCount P) rfl
    (fun c => wishartCgf (mkW ((-0.5 : ℝ) • P.V0 c) (0.5 * P.n0))
      - wishartCgf (mkW ((-0.5 : ℝ) • P.V0 c) (0.5 * P.n0 + hmCount P / 2)))
    (fun c => w1 (ι := Fin P.D) (s.u HM.lam c))
    (fun c : Fin P.K => if (hmNet P).mask HM.lam c then (hmNet P).contribution HM.lam s c else 0) (gaussianF P.D)
    (fun c => by
      split
      · exact hlam0 c
      · exact le_refl 0)
    (fun c => by
      by_cases hm : (hmNet P).mask HM.lam c = true
      · rw [if_pos hm]
        exact hlam c (hmCount P) hT
      · rw [if_neg hm]
        have h0 : hmCount P = 0 := Finset.sum_eq_zero fun q _ => if_neg fun h => hm (decide_eq_true ⟨q, h⟩)
        rw [h0]
        simp)
  rw [e]
  have h1 := add_le_add (add_le_add (add_le_add (add_le_add z1 z2) z0) z3) (le_trans (add_le_add_right z5 _) z4)
  rw [hmBound]
  refine le_trans (le_of_eq ?_) (h1.trans_eq ?_)
  · ring
  · ring

theorem hm_step (data : Fin (P.N + 1) → Fin P.D → ℝ) (hP : HMValid P) (s : (hmNet P).State) (n : HM)
    (h : HMState P data s ∧ ∀ i, P.mask i = true → s.f HM.y i = gaussianF P.D) :
    (HMState P data ((hmNet P).update n s) ∧ ∀ i, P.mask i = true → ((hmNet P).update n s).f HM.y i = gaussianF P.D) ∧
      (hmNet P).bound s ≤ (hmNet P).bound ((hmNet P).update n s) :=
  have h' := C23_hidden_markov P data hP s h.1 [n]
  ⟨⟨h'.2, h.2⟩, h'.1⟩

/-- **C91, hidden Markov model** Whatever the data, the missing vectors, the hyperparameters, the current distributions, the
nodes that are updated and the (positive) tolerance: `update(repeat=None)` ends, or the bounds tend to zero. -/
theorem C91_hidden_markov (data : Fin (P.N + 1) → Fin P.D → ℝ) (hP : HMValid P) (name : HM → String)
    (ns : List HM) (tol : Option (Option ℝ)) (s : VBState HM (hmNet P).State Unit Unit (Option ℝ))
    (hr : VBReachable (netEnv (hmNet P) name) s) (hall : ∀ n : HM, n ∈ s.model)
    (hauto : s.autosaveIterations = 0) (hcheck : s.ignoreBoundChecks = false)
    (t : ℝ) (ht : 0 < t) (htol : tol.getD s.tol = some t)
    (hs : HMState P data (netDecode (hmNet P) s.world))
    (hf : ∀ i, P.mask i = true → (netDecode (hmNet P) s.world).f HM.y i = gaussianF P.D) :
    (∃ k s', updateLoop (netEnv (hmNet P) name) (ns.map .node) tol k s = (.ok true, s')) ∨
      ∃ st : ℕ → VBState HM (hmNet P).State Unit Unit (Option ℝ),
        (∀ k, updateLoop (netEnv (hmNet P) name) (ns.map .node) tol k s = (.ok false, st k)) ∧
        Tendsto (fun k => (hmNet P).bound (netDecode (hmNet P) (st k).world)) atTop (𝓝 0) :=
  C91_network (hmNet P) name (fun s => HMState P data s ∧ ∀ i, P.mask i = true → s.f HM.y i = gaussianF P.D)
    (fun s n h => hm_step P data hP s n h) (hmBound P) (fun s h => hm_bound_le P data hP s h.1 h.2) ns tol s hr hall hauto hcheck
    t ht htol ⟨hs, hf⟩

/-- **C91, hidden Markov model** If the prior of the precisions makes the observations improbable, whatever they are
(`hmBound P < 0`), `update(repeat=None)` ends. -/
theorem C91_hidden_markov_ends (data : Fin (P.N + 1) → Fin P.D → ℝ) (hP : HMValid P) (hB : hmBound P < 0) (name : HM → String)
    (ns : List HM) (tol : Option (Option ℝ)) (s : VBState HM (hmNet P).State Unit Unit (Option ℝ))
    (hr : VBReachable (netEnv (hmNet P) name) s) (hall : ∀ n : HM, n ∈ s.model)
    (hauto : s.autosaveIterations = 0) (hcheck : s.ignoreBoundChecks = false)
    (t : ℝ) (ht : 0 < t) (htol : tol.getD s.tol = some t)
    (hs : HMState P data (netDecode (hmNet P) s.world))
    (hf : ∀ i, P.mask i = true → (netDecode (hmNet P) s.world).f HM.y i = gaussianF P.D) :
    ∃ k s', updateLoop (netEnv (hmNet P) name) (ns.map .node) tol k s = (.ok true, s') :=
  C91_network_ends (hmNet P) name (fun s => HMState P data s ∧ ∀ i, P.mask i = true → s.f HM.y i = gaussianF P.D)
    (fun s n h => hm_step P data hP s n h) (hmBound P) hB (fun s h => hm_bound_le P data hP s h.1 h.2) ns tol s hr hall hauto hcheck
    t ht htol ⟨hs, hf⟩

end

/-- Example: `exHM` is the mixture example with a chain, so the same bound applies. -/
theorem exHM_bound : hmBound exHM < 0 :=
  exGM_bound

/-- `Q = VB(Y, mu, Lambda, Z, A, a0); Q.update(Z, mu, Lambda, repeat=None)` ends -/
example : ∃ s, vbInit (netEnv (hmNet exHM) fun _ => "") [HM.y, HM.mu, HM.lam, HM.z, HM.A, HM.a0] (some 1e-5) 0
      (fun _ => ⟨{ hmInit exHM (fun i d => i + d) (fun _ => 0) (fun c _ => c) with f := fun _ _ => gaussianF 2 },
        (), (), some 1⟩)
      none = .ok s ∧
    ∃ k s', updateLoop (netEnv (hmNet exHM) fun _ => "") ([HM.z, HM.mu, HM.lam].map .node) none k s = (.ok true, s') := by
  refine ⟨_, vbInit_eq _ _ _ _ _ _, C91_hidden_markov_ends exHM (fun i d => i + d) exHM_valid exHM_bound
    (fun _ => "") [HM.z, HM.mu, HM.lam] none _ ⟨_, _, _, _, _, _, [], vbInit_eq _ _ _ _ _ _, rfl⟩ (fun n => ?_) rfl rfl 1e-5
    (by norm_num) rfl (hmInit_state exHM (fun i d => i + d) (fun _ => 0) fun c _ => c) fun _ _ => rfl⟩
  cases n <;> decide

end Verif
