import Verif.Model.Network
import Verif.Props.Gibbs
import Verif.Props.Conjugacy

/-!
# C23: an update never decreases the lower bound
-/

namespace Verif
open Spec

/-- What C20 and Gibbs' inequality give for a distribution: every message is the coefficient of the expected log-density
in the moments of its parent, and `-g` lies above its tangents on the domain of the natural parameters. -/
structure Spec.FamilySound (F : Family) (dom : Set (F.I → ℝ)) : Prop where
  conj : ∀ k u pa f, IsCoefficient
    (fun v => logpdf u (F.phiP (Function.update pa k v)) (F.cgfP (Function.update pa k v)) f) (F.msg k u pa)
  tangent : ∀ phi ∈ dom, ∀ phi' ∈ dom, Tangent F.cgf F.mom phi phi'

/-- What the graph has to satisfy: it has no cycles, no two slots of a child read the same node (C32), what is between
two stochastic nodes is adjoint (C13-C19), and the masks follow the graph. -/
structure Spec.NetSound (G : Net) (dom : ∀ n, Set ((G.fam n).I → ℝ)) : Prop where
  fam : ∀ n, FamilySound (G.fam n) (dom n)
  ann : ∀ n, 0 < G.ann n
  own : ∀ n k u v, G.slot n k (Function.update u n v) = G.slot n k u
  one : ∀ c n k k', k ≠ k' → (∀ u v, G.slot c k (Function.update u n v) = G.slot c k u) ∨
    (∀ u v, G.slot c k' (Function.update u n v) = G.slot c k' u)
  adjoint : ∀ c k n u m, ∃ r, ∀ v, ∑ p, m p ⬝ᵥ G.slot c k (Function.update u n v) p = ∑ q, G.back c k n u m q ⬝ᵥ v q + r
  mask : ∀ c k n u m, (∀ p, G.mask c p = false → m p = 0) → ∀ q, G.mask n q = false → G.back c k n u m q = 0

/-! ### one distribution -/

theorem FamilySound.diff {F : Family} {dom} (h : FamilySound F dom) (u : F.I → ℝ) (pa pa' : ∀ k, F.P k → ℝ)
    (h1 : ∀ k k', k ≠ k' → pa' k = pa k ∨ pa' k' = pa k') :
    (F.phiP pa' ⬝ᵥ u + F.cgfP pa') - (F.phiP pa ⬝ᵥ u + F.cgfP pa) = ∑ k, F.msg k u pa ⬝ᵥ (pa' k - pa k) := by
  by_cases hx : ∃ k0, pa' k0 ≠ pa k0
  · obtain ⟨k0, hk0⟩ := hx
    have hr : ∀ k, k ≠ k0 → pa' k = pa k := fun k hk => (h1 k k0 hk).resolve_right hk0
    have e : pa' = Function.update pa k0 (pa' k0) := by
      funext k
      by_cases hk : k = k0
      · subst hk; simp
      · rw [Function.update_of_ne hk, hr k hk]
    obtain ⟨r, hc⟩ := h.conj k0 u pa 0
    have c1 := hc (pa' k0)
    have c2 := hc (pa k0)
    beta_reduce at c1 c2
    rw [← e] at c1
    rw [Function.update_eq_self] at c2
    simp only [logpdf_eq] at c1 c2
    rw [Finset.sum_eq_single k0 (fun k _ hk => by rw [hr k hk, sub_self, dotProduct_zero]) (by simp), dotProduct_sub]
    linarith
  · push Not at hx
    rw [show pa' = pa from funext hx]
    simp

theorem dotProduct_eq_of_forall {I : Type} [Fintype I] {Q : Type} [Fintype Q] (a b : Q → I → ℝ) (r r' : ℝ)
    (h : ∀ v : Q → I → ℝ, ∑ q, a q ⬝ᵥ v q + r = ∑ q, b q ⬝ᵥ v q + r') : a = b := by
  classical
  have h0 := h 0
  simp only [Pi.zero_apply, dotProduct_zero, Finset.sum_const_zero, zero_add] at h0
  subst h0
  funext q i
  have := h (Pi.single q (Pi.single i 1))
  have e : ∀ c : Q → I → ℝ, ∑ x, c x ⬝ᵥ (Pi.single q (Pi.single i 1) : Q → I → ℝ) x = c q i := by
    intro c
    rw [Finset.sum_eq_single q (fun x _ hx => by rw [Pi.single_eq_of_ne hx, dotProduct_zero]) (by simp), Pi.single_eq_same,
      dotProduct_single, mul_one]
  rw [e, e] at this
  linarith

/-! ### the network -/

namespace Net
variable {G : Net} {dom : ∀ n, Set ((G.fam n).I → ℝ)}

theorem NetSound.back_update (h : NetSound G dom) (c k n u m v) :
    G.back c k n (Function.update u n v) m = G.back c k n u m := by
  obtain ⟨r, hr⟩ := h.adjoint c k n u m
  obtain ⟨r', hr'⟩ := h.adjoint c k n (Function.update u n v) m
  refine dotProduct_eq_of_forall _ _ r' r fun w => ?_
  rw [← hr, ← hr', Function.update_idem]

theorem NetSound.back_zero (h : NetSound G dom) (c k n u m)
    (hs : ∀ u v, G.slot c k (Function.update u n v) = G.slot c k u) : G.back c k n u m = 0 := by
  obtain ⟨r, hr⟩ := h.adjoint c k n u m
  refine dotProduct_eq_of_forall _ _ r (∑ p, m p ⬝ᵥ G.slot c k u p) fun w => ?_
  rw [← hr, hs]
  simp

theorem NetSound.back_sub (h : NetSound G dom) (c k n u m v w) :
    ∑ p, m p ⬝ᵥ (G.slot c k (Function.update u n v) p - G.slot c k (Function.update u n w) p)
      = ∑ q, G.back c k n u m q ⬝ᵥ (v q - w q) := by
  obtain ⟨r, hr⟩ := h.adjoint c k n u m
  simp only [dotProduct_sub, Finset.sum_sub_distrib, hr]
  ring

/-- the terms of the bound of one node, without the condition on zero moments -/
theorem contribution_eq (n : G.N) (s : G.State) (q : G.plate n) :
    G.contribution n s q = ((G.fam n).phiP (G.parents n s.u q) ⬝ᵥ s.u n q + (G.fam n).cgfP (G.parents n s.u q))
      + (if G.observed n q then s.f n q else -(1 / G.ann n) * (s.g n q + s.phi n q ⬝ᵥ s.u n q)) := by
  have e : ∀ (a b : (G.fam n).I → ℝ), ∑ i, (if b i ≠ 0 then a i else 0) * b i = a ⬝ᵥ b := by
    intro a b
    refine Finset.sum_congr rfl fun i _ => ?_
    by_cases hb : b i = 0 <;> simp [hb]
  unfold contribution
  extract_lets T
  rw [show T = 1 / G.ann n from rfl, e fun i => (G.fam n).phiP (G.parents n s.u q) i - 1 / G.ann n * (if !G.observed n q then s.phi n q i else 0)]
  cases ho : G.observed n q
  · have : (fun i => (G.fam n).phiP (G.parents n s.u q) i - 1 / G.ann n * (if !false then s.phi n q i else 0))
        = (G.fam n).phiP (G.parents n s.u q) - (1 / G.ann n) • s.phi n q := by
      funext i; simp
    rw [this, sub_dotProduct, smul_dotProduct, smul_eq_mul]
    simp only [Bool.false_eq_true, if_false]
    ring
  · have : (fun i => (G.fam n).phiP (G.parents n s.u q) i - 1 / G.ann n * (if !true then s.phi n q i else 0))
        = (G.fam n).phiP (G.parents n s.u q) := by
      funext i; simp
    rw [this]
    simp only [if_true]
    ring

theorem parents_one (h : NetSound G dom) (c n : G.N) (u : G.Moments) (v) (p : G.plate c) (k k' : (G.fam c).K)
    (hk : k ≠ k') : G.parents c (Function.update u n v) p k = G.parents c u p k ∨
      G.parents c (Function.update u n v) p k' = G.parents c u p k' := by
  rcases h.one c n k k' hk with h1 | h1
  · exact Or.inl (by unfold parents; rw [h1])
  · exact Or.inr (by unfold parents; rw [h1])

theorem message_masked (c : G.N) (k : (G.fam c).K) (u : G.Moments) (p : G.plate c) (hp : G.mask c p = false) :
    G.message c k u p = 0 := by
  funext i; simp [message, hp]

/-- the terms of another node change linearly in the moments of `n` -/
theorem other_diff (h : NetSound G dom) (c n : G.N) (hcn : c ≠ n) (s : G.State) (phi) :
    (∑ p, if G.mask c p then G.contribution c (G.setPhi n phi s) p else 0)
      - (∑ p, if G.mask c p then G.contribution c s p else 0)
      = ∑ k, ∑ q, G.back c k n s.u (G.message c k s.u) q ⬝ᵥ ((G.setPhi n phi s).u n q - s.u n q) := by
  have hu : (G.setPhi n phi s).u = Function.update s.u n ((G.setPhi n phi s).u n) := by
    simp [setPhi]
  have huc : (G.setPhi n phi s).u c = s.u c := by rw [hu, Function.update_of_ne hcn]
  have hgc : (G.setPhi n phi s).g c = s.g c := by simp [setPhi, hcn]
  have hpc : (G.setPhi n phi s).phi c = s.phi c := by simp [setPhi, hcn]
  have hfc : (G.setPhi n phi s).f c = s.f c := rfl
  rw [← Finset.sum_sub_distrib]
  have hk : ∀ k, ∑ q, G.back c k n s.u (G.message c k s.u) q ⬝ᵥ ((G.setPhi n phi s).u n q - s.u n q)
      = ∑ p, G.message c k s.u p ⬝ᵥ (G.slot c k (G.setPhi n phi s).u p - G.slot c k s.u p) := by
    intro k
    rw [← NetSound.back_sub h, ← hu, Function.update_eq_self]
  rw [Finset.sum_congr rfl fun k _ => hk k, Finset.sum_comm]
  refine Finset.sum_congr rfl fun p _ => ?_
  cases hm : G.mask c p
  · simp [message_masked c _ s.u p hm]
  · rw [if_pos rfl, if_pos rfl, contribution_eq, contribution_eq, huc, hgc, hpc, hfc]
    have hd := FamilySound.diff (h.fam c) (s.u c p) (G.parents c s.u p) (G.parents c (G.setPhi n phi s).u p)
      (fun k k' hkk => by rw [hu]; exact parents_one h c n s.u _ p k k' hkk)
    rw [add_sub_add_right_eq_sub, hd]
    refine Finset.sum_congr rfl fun k _ => ?_
    have e : G.message c k s.u p = (G.fam c).msg k (s.u c p) (G.parents c s.u p) := by
      funext i; simp [message, hm]
    rw [e]
    rfl

/-- The terms which the moments of `n` are multiplied with: prior and messages, without the bias. -/
def target (n : G.N) (s : G.State) (q : G.plate n) : (G.fam n).I → ℝ :=
  (G.fam n).phiP (G.parents n s.u q) + G.fromChildren n s.u q

/-- the terms of the bound in the distribution of one latent element -/
noncomputable def elementBound (n : G.N) (s : G.State) (q : G.plate n) (phi : (G.fam n).I → ℝ) : ℝ :=
  target n s q ⬝ᵥ (G.fam n).mom phi - (1 / G.ann n) * ((G.fam n).cgf phi + phi ⬝ᵥ (G.fam n).mom phi)

theorem bound_setPhi (h : NetSound G dom) (n : G.N) (s : G.State) :
    ∃ C, ∀ phi, G.bound (G.setPhi n phi s)
      = C + ∑ q, if G.mask n q && !G.observed n q then elementBound n s q (phi q) else 0 := by
  -- the constant: the terms of the others at the current state and the terms of the observed elements
  refine ⟨∑ c ∈ Finset.univ.erase n, (∑ p, if G.mask c p then G.contribution c s p else 0)
      - ∑ q, (if G.mask n q && !G.observed n q then G.fromChildren n s.u q ⬝ᵥ s.u n q else 0)
      + ∑ q, (if G.mask n q then (G.fam n).cgfP (G.parents n s.u q) else 0)
      + ∑ q, (if G.mask n q && G.observed n q then
          (G.fam n).phiP (G.parents n s.u q) ⬝ᵥ s.u n q + s.f n q else 0), fun phi => ?_⟩
  have hu : (G.setPhi n phi s).u = Function.update s.u n ((G.setPhi n phi s).u n) := by
    simp [setPhi]
  have hpar : ∀ q, G.parents n (G.setPhi n phi s).u q = G.parents n s.u q := by
    intro q; funext k; unfold parents; rw [hu, h.own]
  -- the others
  have hothers : ∑ c ∈ Finset.univ.erase n, (∑ p, if G.mask c p then G.contribution c (G.setPhi n phi s) p else 0)
      = ∑ c ∈ Finset.univ.erase n, (∑ p, if G.mask c p then G.contribution c s p else 0)
        + ∑ q, G.fromChildren n s.u q ⬝ᵥ ((G.setPhi n phi s).u n q - s.u n q) := by
    rw [← sub_eq_iff_eq_add', ← Finset.sum_sub_distrib,
      Finset.sum_congr rfl fun c hc => other_diff h c n (Finset.ne_of_mem_erase hc) s phi]
    have hn : ∑ k, ∑ q, G.back n k n s.u (G.message n k s.u) q ⬝ᵥ ((G.setPhi n phi s).u n q - s.u n q) = 0 := by
      refine Finset.sum_eq_zero fun k _ => Finset.sum_eq_zero fun q _ => ?_
      rw [NetSound.back_zero h n k n s.u _ fun u v => h.own n k u v]
      simp
    rw [← add_zero (∑ c ∈ _, _), ← hn, Finset.sum_erase_add _ _ (Finset.mem_univ n)]
    have : ∀ q, G.fromChildren n s.u q = ∑ c, ∑ k, G.back c k n s.u (G.message c k s.u) q := by
      intro q; funext j; simp [fromChildren, Finset.sum_apply]
    simp only [this, sum_dotProduct]
    rw [Finset.sum_comm]
    refine Finset.sum_congr rfl fun c _ => ?_
    rw [Finset.sum_comm]
  unfold bound
  rw [← Finset.sum_erase_add _ _ (Finset.mem_univ n), hothers]
  have hzero : ∀ q, G.mask n q = false → G.fromChildren n s.u q = 0 := by
    intro q hq
    funext j
    unfold fromChildren
    refine Finset.sum_eq_zero fun c _ => Finset.sum_eq_zero fun k _ => ?_
    rw [h.mask c k n s.u _ (fun p hp => message_masked c k s.u p hp) q hq]
    rfl
  suffices hq : ∀ q, G.fromChildren n s.u q ⬝ᵥ ((G.setPhi n phi s).u n q - s.u n q)
      + (if G.mask n q then G.contribution n (G.setPhi n phi s) q else 0)
      = -(if G.mask n q && !G.observed n q then G.fromChildren n s.u q ⬝ᵥ s.u n q else 0)
        + (if G.mask n q then (G.fam n).cgfP (G.parents n s.u q) else 0)
        + (if G.mask n q && G.observed n q then (G.fam n).phiP (G.parents n s.u q) ⬝ᵥ s.u n q + s.f n q else 0)
        + (if G.mask n q && !G.observed n q then elementBound n s q (phi q) else 0) by
    have hs := Finset.sum_congr rfl fun q (_ : q ∈ (Finset.univ : Finset (G.plate n))) => hq q
    simp only [Finset.sum_add_distrib, Finset.sum_neg_distrib] at hs
    linarith
  intro q
  have hphi : (G.setPhi n phi s).phi n = phi := by simp [setPhi]
  have huq : (G.setPhi n phi s).u n q = if !G.observed n q then (G.fam n).mom (phi q) else s.u n q := by simp [setPhi]
  have hgq : (G.setPhi n phi s).g n q = if !G.observed n q then (G.fam n).cgf (phi q) else s.g n q := by simp [setPhi]
  have hfq : (G.setPhi n phi s).f n q = s.f n q := rfl
  cases hm : G.mask n q
  · simp [hzero q hm]
  · rw [contribution_eq, hpar, hphi, huq, hgq, hfq]
    cases ho : G.observed n q
    · simp only [Bool.not_false, if_true, Bool.and_true, Bool.and_false, Bool.false_eq_true, if_false, elementBound,
        target, dotProduct_sub, add_dotProduct]
      ring
    · simp only [Bool.not_true, if_true, Bool.and_true, Bool.and_false, Bool.false_eq_true, if_false, sub_self,
        dotProduct_zero]
      ring

theorem elementBound_le (h : NetSound G dom) (n : G.N) (s : G.State) (hb : ∀ q, G.bias n q = 0) (q : G.plate n)
    (phi : (G.fam n).I → ℝ) (hphi : phi ∈ dom n) (hnew : G.newPhi n s q ∈ dom n) :
    elementBound n s q phi ≤ elementBound n s q (G.newPhi n s q) := by
  have ha := h.ann n
  have e : target n s q = (1 / G.ann n) • G.newPhi n s q := by
    funext j
    simp only [target, newPhi, hb, Pi.add_apply, Pi.zero_apply, add_zero, Pi.smul_apply, smul_eq_mul]
    field_simp
  have ht := (h.fam n).tangent phi hphi _ hnew
  unfold Tangent at ht
  rw [dotProduct_sub] at ht
  unfold elementBound
  rw [e, smul_dotProduct, smul_dotProduct, smul_eq_mul, smul_eq_mul, ← mul_sub, ← mul_sub]
  refine mul_le_mul_of_nonneg_left ?_ (by positivity)
  rw [dotProduct_comm _ phi, dotProduct_comm _ (G.newPhi n s q)] at ht
  linarith

end Net

open Net

/-- **C23**, the maximiser: of all distributions the node could have, the one which `update` sets gives the largest lower
bound, given the others. -/
theorem C23_maximiser (G : Net) (dom) (h : NetSound G dom) (n : G.N) (s : G.State) (hb : ∀ q, G.bias n q = 0)
    (hnew : ∀ q, G.observed n q = false → G.newPhi n s q ∈ dom n)
    (phi : G.plate n → (G.fam n).I → ℝ) (hphi : ∀ q, G.observed n q = false → phi q ∈ dom n) :
    G.bound (G.setPhi n phi s) ≤ G.bound (G.update n s) := by
  obtain ⟨C, hC⟩ := bound_setPhi h n s
  rw [update, hC, hC]
  refine (add_le_add_iff_left C).2 (Finset.sum_le_sum fun q _ => ?_)
  cases ho : G.observed n q
  · cases hm : G.mask n q
    · simp
    · simp only [Bool.not_false, Bool.and_true, if_true]
      exact elementBound_le h n s hb q _ (hphi q ho) (hnew q ho)
  · simp

/-- The stored moments and `g` of the latent elements of a node are those of its parameters. -/
def Spec.Consistent (G : Net) (dom : ∀ n, Set ((G.fam n).I → ℝ)) (n : G.N) (s : G.State) : Prop :=
  ∀ q, G.observed n q = false →
    s.phi n q ∈ dom n ∧ s.u n q = (G.fam n).mom (s.phi n q) ∧ s.g n q = (G.fam n).cgf (s.phi n q)

theorem setPhi_self (G : Net) (dom) (n : G.N) (s : G.State) (hs : Consistent G dom n s) : G.setPhi n (s.phi n) s = s := by
  have hu : (fun q => if !G.observed n q then (G.fam n).mom (s.phi n q) else s.u n q) = s.u n := by
    funext q
    cases ho : G.observed n q
    · simp [(hs q ho).2.1]
    · simp
  have hg : (fun q => if !G.observed n q then (G.fam n).cgf (s.phi n q) else s.g n q) = s.g n := by
    funext q
    cases ho : G.observed n q
    · simp [(hs q ho).2.2]
    · simp
  unfold setPhi
  rw [hu, hg, Function.update_eq_self, Function.update_eq_self, Function.update_eq_self]

/-- **C23**: an update never decreases the lower bound. -/
theorem C23_update (G : Net) (dom) (h : NetSound G dom) (n : G.N) (s : G.State) (hb : ∀ q, G.bias n q = 0)
    (hs : Consistent G dom n s) (hnew : ∀ q, G.observed n q = false → G.newPhi n s q ∈ dom n) :
    G.bound s ≤ G.bound (G.update n s) := by
  have := C23_maximiser G dom h n s hb hnew (s.phi n) fun q ho => (hs q ho).1
  rwa [setPhi_self G dom n s hs] at this

theorem newPhi_setPhi (G : Net) (dom) (h : NetSound G dom) (n : G.N) (s : G.State) (phi) :
    G.newPhi n (G.setPhi n phi s) = G.newPhi n s := by
  have hu : (G.setPhi n phi s).u = Function.update s.u n ((G.setPhi n phi s).u n) := by
    simp [setPhi]
  have hpar : ∀ q, G.parents n (G.setPhi n phi s).u q = G.parents n s.u q := by
    intro q; funext k; unfold parents; rw [hu, h.own]
  have hch : G.fromChildren n (G.setPhi n phi s).u = G.fromChildren n s.u := by
    funext q j
    unfold fromChildren
    refine Finset.sum_congr rfl fun c _ => Finset.sum_congr rfl fun k _ => ?_
    by_cases hdep : ∀ u v, G.slot c k (Function.update u n v) = G.slot c k u
    · rw [NetSound.back_zero h c k n _ _ hdep, NetSound.back_zero h c k n _ _ hdep]
    · have hcn : c ≠ n := by
        rintro rfl
        exact hdep fun u v => h.own c k u v
      have hm : G.message c k (G.setPhi n phi s).u = G.message c k s.u := by
        funext p i
        unfold message
        have huc : (G.setPhi n phi s).u c = s.u c := by rw [hu, Function.update_of_ne hcn]
        have hk : G.parents c (G.setPhi n phi s).u p
            = Function.update (G.parents c s.u p) k (G.parents c (G.setPhi n phi s).u p k) := by
          funext k'
          by_cases hk' : k' = k
          · subst hk'; simp
          · rw [Function.update_of_ne hk']
            unfold parents
            rw [hu, ((h.one c n k k' (Ne.symm hk')).resolve_left hdep)]
        have hmsg : ∀ v, (G.fam c).msg k (s.u c p) (Function.update (G.parents c s.u p) k v)
            = (G.fam c).msg k (s.u c p) (G.parents c s.u p) := by
          intro v
          have c1 := (h.fam c).conj k (s.u c p) (Function.update (G.parents c s.u p) k v) 0
          simp only [Function.update_idem] at c1
          classical
          exact isCoefficient_unique c1 ((h.fam c).conj k (s.u c p) (G.parents c s.u p) 0)
        rw [huc, hk, hmsg]
      rw [hm, hu, NetSound.back_update h]
  funext q j
  simp only [newPhi, hpar, hch]

/-- **C23**, updating twice in a row changes nothing (also with a bias, and also from a state which is not consistent). -/
theorem C23_twice (G : Net) (dom) (h : NetSound G dom) (n : G.N) (s : G.State) :
    G.update n (G.update n s) = G.update n s := by
  have e : G.newPhi n (G.update n s) = G.newPhi n s := newPhi_setPhi G dom h n s _
  rw [update, e]
  have hu : ∀ q, (G.update n s).u n q = if !G.observed n q then (G.fam n).mom (G.newPhi n s q) else s.u n q := by
    intro q; simp [update, setPhi]
  have hg : ∀ q, (G.update n s).g n q = if !G.observed n q then (G.fam n).cgf (G.newPhi n s q) else s.g n q := by
    intro q; simp [update, setPhi]
  unfold setPhi
  simp only [hu, hg]
  unfold update setPhi
  simp only [Function.update_idem]
  congr 1
  · congr 1
    funext q
    cases G.observed n q <;> simp
  · congr 1
    funext q
    cases G.observed n q <;> simp

/-- A sequence of updates in which every new distribution is a valid one. -/
inductive Spec.Updates (G : Net) (dom : ∀ n, Set ((G.fam n).I → ℝ)) : G.State → List G.N → G.State → Prop
  | nil (s) : Updates G dom s [] s
  | cons (s n ns s') : (∀ q, G.observed n q = false → G.newPhi n s q ∈ dom n) → Updates G dom (G.update n s) ns s' →
      Updates G dom s (n :: ns) s'

theorem consistent_update (G : Net) (dom) (n : G.N) (s : G.State)
    (hnew : ∀ q, G.observed n q = false → G.newPhi n s q ∈ dom n) (hs : ∀ m, Consistent G dom m s) :
    ∀ m, Consistent G dom m (G.update n s) := by
  intro m q ho
  by_cases hm : m = n
  · subst hm
    have h1 : (G.update m s).phi m = G.newPhi m s := by simp [update, setPhi]
    rw [h1]
    refine ⟨hnew q ho, ?_, ?_⟩
    · simp [update, setPhi, ho]
    · simp [update, setPhi, ho]
  · have h1 : (G.update n s).phi m = s.phi m := by simp [update, setPhi, hm]
    have h2 : (G.update n s).u m = s.u m := by simp [update, setPhi, hm]
    have h3 : (G.update n s).g m = s.g m := by simp [update, setPhi, hm]
    rw [h1, h2, h3]
    exact hs m q ho

/-- **C23** for all sequences of updates. -/
theorem C23_sequence (G : Net) (dom) (h : NetSound G dom) (hb : ∀ n q, G.bias n q = 0) (s s' : G.State) (ns : List G.N)
    (hs : ∀ n, Consistent G dom n s) (hr : Updates G dom s ns s') :
    G.bound s ≤ G.bound s' ∧ ∀ n, Consistent G dom n s' := by
  induction hr with
  | nil s => exact ⟨le_refl _, hs⟩
  | cons s n ns s' hnew _ ih =>
    obtain ⟨h1, h2⟩ := ih (consistent_update G dom n s hnew hs)
    exact ⟨(C23_update G dom h n s (hb n) (hs n) hnew).trans h1, h2⟩

end Verif
