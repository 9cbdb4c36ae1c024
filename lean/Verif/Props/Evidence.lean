import Verif.Spec.Evidence
import Verif.Lemmas.Evidence
import Verif.Props.LowerBound
import Verif.Props.PlateMultiplier

/-!
# C90: the lower bound is a lower bound of the logarithm of the evidence
-/

namespace Verif
open Spec Net MeasureTheory

variable {G : Net} {V dom : ∀ n, Set ((G.fam n).I → ℝ)}

/-- the terms of one node in the logarithm of the joint density, as a function of the statistics of all nodes -/
noncomputable def nodeTerm (c : G.N) (u : G.Moments) : ℝ :=
  ∑ p, if G.mask c p then (G.fam c).phiP (G.parents c u p) ⬝ᵥ u c p + (G.fam c).cgfP (G.parents c u p) else 0

theorem nodeTerm_own (h : MultSound G (fun _ => 1) V dom) (n : G.N) (u : G.Moments) (v) :
    nodeTerm n (Function.update u n v) = ∑ q, (if G.mask n q then (G.fam n).phiP (G.parents n u q) else 0) ⬝ᵥ v q
      + ∑ q, if G.mask n q then (G.fam n).cgfP (G.parents n u q) else 0 := by
  rw [← Finset.sum_add_distrib]
  refine Finset.sum_congr rfl fun q _ => ?_
  have hp : G.parents n (Function.update u n v) q = G.parents n u q := by
    funext k; unfold parents; rw [h.own]
  rw [hp, Function.update_self]
  cases hm : G.mask n q <;> simp

theorem nodeTerm_other (h : MultSound G (fun _ => 1) V dom) (c n : G.N) (hcn : c ≠ n) (u : G.Moments)
    (hu : ∀ n q, u n q ∈ V n) : ∃ b : ℝ, ∀ v, (∀ q, v q ∈ V n) → nodeTerm c (Function.update u n v) = ∑ q, (∑ k, G.back c k n u (G.message c k u) q) ⬝ᵥ v q + b := by
  choose r hr using fun k => h.adjoint c k n u (G.message c k u) hu
  simp only [one_mul] at hr
  refine ⟨nodeTerm c u + ∑ k, (r k - ∑ p, G.message c k u p ⬝ᵥ G.slot c k u p), fun v hv => ?_⟩
  have e : nodeTerm c (Function.update u n v) - nodeTerm c u
      = ∑ k, (∑ p, G.message c k u p ⬝ᵥ G.slot c k (Function.update u n v) p - ∑ p, G.message c k u p ⬝ᵥ G.slot c k u p) := by
    unfold nodeTerm
    simp only [← Finset.sum_sub_distrib]
    rw [Finset.sum_comm]
    refine Finset.sum_congr rfl fun p _ => ?_
    cases hm : G.mask c p
    · simp [message_masked c _ u p hm]
    · rw [if_pos rfl, if_pos rfl, Function.update_of_ne hcn,
        FamilySound.diff (h.fam c) (u c p) (G.parents c u p) (G.parents c (Function.update u n v) p)
          (fun k k' hkk => MultSound.parents_one h c n u _ p k k' hkk)]
      refine Finset.sum_congr rfl fun k _ => ?_
      have e : G.message c k u p = (G.fam c).msg k (u c p) (G.parents c u p) := by
        funext i; simp [message, hm]
      rw [e, dotProduct_sub]
      rfl
  simp only [hr _ v hv] at e
  rw [sub_eq_iff_eq_add] at e
  rw [e]
  simp only [sum_dotProduct, Finset.sum_sub_distrib, Finset.sum_add_distrib]
  rw [Finset.sum_comm]
  ring

/-- the logarithm of the joint density without the factors of the single values -/
noncomputable def jointTerm (u : G.Moments) : ℝ := ∑ c, nodeTerm c u

theorem jointTerm_affine (h : MultSound G (fun _ => 1) V dom) (n : G.N) (u : G.Moments) (hu : ∀ n q, u n q ∈ V n) :
    ∃ b : ℝ, ∀ v, (∀ q, v q ∈ V n) → jointTerm (Function.update u n v)
      = ∑ q, ((if G.mask n q then (G.fam n).phiP (G.parents n u q) else 0) + G.fromChildren n u q) ⬝ᵥ v q + b := by
  choose b hb using fun c : { c // c ≠ n } => nodeTerm_other h c.1 n c.2 u hu
  refine ⟨∑ c ∈ Finset.univ.erase n, (if hc : c ≠ n then b ⟨c, hc⟩ else 0)
    + ∑ q, (if G.mask n q then (G.fam n).cgfP (G.parents n u q) else 0), fun v hv => ?_⟩
  have hf : ∀ q, G.fromChildren n u q = ∑ c, ∑ k, G.back c k n u (G.message c k u) q := by
    intro q; funext j; simp [fromChildren, Finset.sum_apply]
  have hn : ∑ q, (∑ k, G.back n k n u (G.message n k u) q) ⬝ᵥ v q = 0 := by
    refine Finset.sum_eq_zero fun q _ => ?_
    rw [sum_dotProduct]
    refine Finset.sum_eq_zero fun k _ => ?_
    rw [h.back]
    simp
  have ho : ∑ q, G.fromChildren n u q ⬝ᵥ v q
      = ∑ c ∈ Finset.univ.erase n, ∑ q, (∑ k, G.back c k n u (G.message c k u) q) ⬝ᵥ v q := by
    have e := Finset.sum_erase_add Finset.univ (fun c => ∑ q, (∑ k, G.back c k n u (G.message c k u) q) ⬝ᵥ v q)
      (Finset.mem_univ n)
    beta_reduce at e
    rw [hn, add_zero] at e
    rw [e, Finset.sum_comm]
    exact Finset.sum_congr rfl fun q _ => by rw [hf, sum_dotProduct]
  unfold jointTerm
  rw [← Finset.sum_erase_add _ _ (Finset.mem_univ n), nodeTerm_own h]
  simp only [add_dotProduct]
  rw [Finset.sum_add_distrib, ho]
  have : ∑ c ∈ Finset.univ.erase n, nodeTerm c (Function.update u n v)
      = ∑ c ∈ Finset.univ.erase n, (∑ q, (∑ k, G.back c k n u (G.message c k u) q) ⬝ᵥ v q)
        + ∑ c ∈ Finset.univ.erase n, (if hc : c ≠ n then b ⟨c, hc⟩ else 0) := by
    rw [← Finset.sum_add_distrib]
    refine Finset.sum_congr rfl fun c hc => ?_
    have hc' := Finset.ne_of_mem_erase hc
    rw [dif_pos hc']
    exact hb ⟨c, hc'⟩ v hv
  rw [this]
  ring

/-- moments of all elements from those of the latent ones -/
noncomputable def assemble (data : G.Moments) (w : ∀ e : Latent G, (G.fam e.1.1).I → ℝ) : G.Moments := fun n q =>
  if h : (G.mask n q && !G.observed n q) = true then w ⟨⟨n, q⟩, h⟩ else data n q

open Classical in
theorem assemble_update (data : G.Moments) (w : ∀ e : Latent G, (G.fam e.1.1).I → ℝ) (n : G.N) (q : G.plate n) (h)
    (v : (G.fam n).I → ℝ) :
    assemble data (Function.update w (⟨⟨n, q⟩, h⟩ : Latent G) v)
      = Function.update (assemble data w) n (Function.update (assemble data w n) q v) := by
  funext n' q'
  by_cases hn : n' = n
  · subst hn
    rw [Function.update_self]
    by_cases hq : q' = q
    · subst hq
      rw [Function.update_self]
      unfold assemble
      rw [dif_pos h, Function.update_self]
    · rw [Function.update_of_ne hq]
      unfold assemble
      by_cases h' : (G.mask n' q' && !G.observed n' q') = true
      · rw [dif_pos h', dif_pos h', Function.update_of_ne]
        intro hx
        have := congrArg Subtype.val hx
        exact hq (eq_of_heq (Sigma.mk.inj this).2)
      · rw [dif_neg h', dif_neg h']
  · rw [Function.update_of_ne hn]
    unfold assemble
    by_cases h' : (G.mask n' q' && !G.observed n' q') = true
    · rw [dif_pos h', dif_pos h', Function.update_of_ne]
      intro hx
      have := congrArg Subtype.val hx
      exact hn (Sigma.mk.inj this).1
    · rw [dif_neg h', dif_neg h']

theorem assemble_mem (data : G.Moments) (w : ∀ e : Latent G, (G.fam e.1.1).I → ℝ) (hd : ∀ n q, data n q ∈ V n)
    (hw : ∀ e : Latent G, w e ∈ V e.1.1) (n : G.N) (q : G.plate n) : assemble data w n q ∈ V n := by
  unfold assemble
  by_cases h : (G.mask n q && !G.observed n q) = true
  · rw [dif_pos h]; exact hw ⟨⟨n, q⟩, h⟩
  · rw [dif_neg h]; exact hd n q

open Classical in
theorem assemble_affine (h : MultSound G (fun _ => 1) V dom) (data : G.Moments) (w : ∀ e : Latent G, (G.fam e.1.1).I → ℝ) (e : Latent G)
    (hd : ∀ n q, data n q ∈ V n) (hw : ∀ e : Latent G, w e ∈ V e.1.1) : ∃ a b, ∀ v ∈ V e.1.1, jointTerm (assemble data (Function.update w e v)) = a ⬝ᵥ v + b := by
  obtain ⟨⟨n, q⟩, he⟩ := e
  have hV := assemble_mem data w hd hw
  obtain ⟨b, hb⟩ := jointTerm_affine h n (assemble data w) hV
  set a := fun q => (if G.mask n q then (G.fam n).phiP (G.parents n (assemble data w) q) else 0)
    + G.fromChildren n (assemble data w) q
  have hab : ∀ v, (∀ q, v q ∈ V n) → jointTerm (Function.update (assemble data w) n v) = ∑ q, a q ⬝ᵥ v q + b := hb
  refine ⟨a q, ∑ q' ∈ Finset.univ.erase q, a q' ⬝ᵥ assemble data w n q' + b, fun v hv => ?_⟩
  have hV' : ∀ q', Function.update (assemble data w n) q v q' ∈ V n := by
    intro q'
    by_cases hq : q' = q
    · subst hq; rw [Function.update_self]; exact hv
    · rw [Function.update_of_ne hq]; exact hV n q'
  rw [assemble_update, hab _ hV', ← Finset.add_sum_erase _ _ (Finset.mem_univ q), Function.update_self, add_assoc]
  congr 2
  exact Finset.sum_congr rfl fun q' hq' => by rw [Function.update_of_ne (Finset.ne_of_mem_erase hq')]

theorem sum_latent (f : (e : Latent G) → ℝ) :
    ∑ e, f e = ∑ n, ∑ q : G.plate n, if h : (G.mask n q && !G.observed n q) = true then f ⟨⟨n, q⟩, h⟩ else 0 := by
  classical
  have e1 : ∑ n, ∑ q : G.plate n, (if h : (G.mask n q && !G.observed n q) = true then f ⟨⟨n, q⟩, h⟩ else 0)
      = ∑ e : Σ n, G.plate n, if h : (G.mask e.1 e.2 && !G.observed e.1 e.2) = true then f ⟨e, h⟩ else 0 := by
    rw [← Finset.univ_sigma_univ, Finset.sum_sigma]
  rw [e1, Finset.sum_dite, Finset.sum_const_zero, add_zero]
  symm
  refine Finset.sum_bij' (i := fun e _ => (⟨e.1, (Finset.mem_filter.1 e.2).2⟩ : Latent G))
    (j := fun e _ => ⟨e.1, Finset.mem_filter.2 ⟨Finset.mem_univ _, e.2⟩⟩) ?_ ?_ ?_ ?_ ?_ <;> intros <;> simp

/-! ### bound and joint density -/

/-- the terms of the data -/
noncomputable def dataTerm (G : Net) (f : ∀ n, G.plate n → ℝ) : ℝ :=
  ∑ n, ∑ q, if G.mask n q && G.observed n q then f n q else 0

theorem bound_eq (s : G.State) (ha : ∀ n, G.ann n = 1) :
    G.bound s = jointTerm s.u + dataTerm G s.f
      - ∑ e : Latent G, (s.g e.1.1 e.1.2 + s.phi e.1.1 e.1.2 ⬝ᵥ s.u e.1.1 e.1.2) := by
  rw [sum_latent fun e => s.g e.1.1 e.1.2 + s.phi e.1.1 e.1.2 ⬝ᵥ s.u e.1.1 e.1.2]
  unfold bound jointTerm nodeTerm dataTerm
  rw [← Finset.sum_add_distrib, ← Finset.sum_sub_distrib]
  refine Finset.sum_congr rfl fun n _ => ?_
  rw [← Finset.sum_add_distrib, ← Finset.sum_sub_distrib]
  refine Finset.sum_congr rfl fun q _ => ?_
  rw [contribution_eq, ha]
  by_cases hm : G.mask n q = true <;> by_cases ho : G.observed n q = true <;> simp [hm, ho]
  ring

theorem statistics_eq (R : ∀ n, Sampled (G.fam n) (dom n)) (data : G.Moments) (z : ∀ e : Latent G, (R e.1.1).X) :
    statistics G R data z = assemble data fun e => (R e.1.1).T (z e) := rfl

theorem logJoint_eq (R : ∀ n, Sampled (G.fam n) (dom n)) (data : G.Moments) (f) (z : ∀ e : Latent G, (R e.1.1).X) :
    logJoint G R data f z = jointTerm (assemble data fun e => (R e.1.1).T (z e)) + dataTerm G f
      + ∑ e : Latent G, (R e.1.1).fx (z e) := by
  rw [sum_latent fun e => (R e.1.1).fx (z e)]
  unfold logJoint jointTerm nodeTerm dataTerm
  rw [statistics_eq, ← Finset.sum_add_distrib, ← Finset.sum_add_distrib]
  refine Finset.sum_congr rfl fun n _ => ?_
  rw [← Finset.sum_add_distrib, ← Finset.sum_add_distrib]
  refine Finset.sum_congr rfl fun q _ => ?_
  by_cases hm : G.mask n q = true <;> by_cases ho : G.observed n q = true <;> simp [hm, ho]

/-- `s` holds the data: its moments and `f` agree with them wherever nothing is latent -/
def Spec.HoldsData (data : G.Moments) (f : ∀ n, G.plate n → ℝ) (s : G.State) : Prop :=
  (∀ n q, (G.mask n q && !G.observed n q) = false → s.u n q = data n q) ∧
    ∀ n q, (G.mask n q && G.observed n q) = true → s.f n q = f n q

theorem assemble_self (data : G.Moments) (f) (s : G.State) (hd : HoldsData data f s) :
    assemble data (fun e => s.u e.1.1 e.1.2) = s.u := by
  funext n q
  unfold assemble
  by_cases h : (G.mask n q && !G.observed n q) = true
  · rw [dif_pos h]
  · rw [dif_neg h, hd.1 n q (by simpa using h)]

theorem dataTerm_eq (data : G.Moments) (f) (s : G.State) (hd : HoldsData data f s) : dataTerm G s.f = dataTerm G f := by
  unfold dataTerm
  refine Finset.sum_congr rfl fun n _ => Finset.sum_congr rfl fun q _ => ?_
  by_cases h : (G.mask n q && G.observed n q) = true
  · rw [if_pos h, if_pos h, hd.2 n q h]
  · rw [if_neg h, if_neg h]

/-- the logarithm of the density of the approximation -/
noncomputable def logApprox (R : ∀ n, Sampled (G.fam n) (dom n)) (s : G.State) (z : ∀ e : Latent G, (R e.1.1).X) : ℝ :=
  ∑ e : Latent G, (s.phi e.1.1 e.1.2 ⬝ᵥ (R e.1.1).T (z e) + (G.fam e.1.1).cgf (s.phi e.1.1 e.1.2) + (R e.1.1).fx (z e))

theorem latent_consistent {s : G.State} (hs : ∀ n, Consistent G dom n s) (e : Latent G) :
    s.phi e.1.1 e.1.2 ∈ dom e.1.1 ∧ s.u e.1.1 e.1.2 = (G.fam e.1.1).mom (s.phi e.1.1 e.1.2) ∧
      s.g e.1.1 e.1.2 = (G.fam e.1.1).cgf (s.phi e.1.1 e.1.2) := by
  have h := e.2
  simp only [Bool.and_eq_true, Bool.not_eq_true'] at h
  exact hs e.1.1 e.1.2 h.2

/-- The density of the approximation is normalised. -/
theorem logApprox_norm (R : ∀ n, Sampled (G.fam n) (dom n)) (s : G.State)
    (hs : ∀ e : Latent G, s.phi e.1.1 e.1.2 ∈ dom e.1.1) :
    Integrable (fun z => Real.exp (logApprox R s z)) (Measure.pi fun e : Latent G => (R e.1.1).vol) ∧
      ∫ z, Real.exp (logApprox R s z) ∂(Measure.pi fun e : Latent G => (R e.1.1).vol) = 1 := by
  have hn := fun e : Latent G => (R e.1.1).norm _ (hs e)
  have hi : ∀ e : Latent G, Integrable (fun x => Real.exp (s.phi e.1.1 e.1.2 ⬝ᵥ (R e.1.1).T x
      + (G.fam e.1.1).cgf (s.phi e.1.1 e.1.2) + (R e.1.1).fx x)) (R e.1.1).vol := by
    intro e
    by_contra hc
    have := hn e
    rw [integral_undef hc] at this
    exact zero_ne_one this
  simp only [logApprox, Real.exp_sum]
  constructor
  · exact Integrable.fintype_prod_dep hi
  · rw [integral_fintype_prod_eq_prod (f := fun (e : Latent G) x => Real.exp (s.phi e.1.1 e.1.2 ⬝ᵥ (R e.1.1).T x
      + (G.fam e.1.1).cgf (s.phi e.1.1 e.1.2) + (R e.1.1).fx x))]
    exact Finset.prod_eq_one fun e _ => hn e

/-- a linear map onto a subspace which leaves its elements -/
theorem exists_projection {I : Type*} [Fintype I] (W : Submodule ℝ (I → ℝ)) :
    ∃ π : (I → ℝ) →ₗ[ℝ] (I → ℝ), (∀ v, π v ∈ W) ∧ ∀ v ∈ W, π v = v := by
  obtain ⟨g, hg⟩ := W.subtype.exists_leftInverse_of_injective (by simp)
  refine ⟨W.subtype ∘ₗ g, fun v => (g v).2, fun v hv => ?_⟩
  exact congrArg W.subtype (LinearMap.congr_fun hg ⟨v, hv⟩)

/-- a linear function of a vector is a dot product -/
theorem dotProduct_linear {I J : Type*} [Fintype I] [Fintype J] [DecidableEq J] (π : (J → ℝ) →ₗ[ℝ] (I → ℝ)) (a : I → ℝ) (v : J → ℝ) :
    a ⬝ᵥ π v = (fun j => a ⬝ᵥ π (Pi.single j 1)) ⬝ᵥ v := by
  have e : v = ∑ j, v j • (Pi.single j 1 : J → ℝ) := by
    funext i
    simp [Finset.sum_apply, Pi.single_apply]
  conv_lhs => rw [e, map_sum]
  rw [dotProduct_sum]
  exact Finset.sum_congr rfl fun j _ => by rw [map_smul, dotProduct_smul, smul_eq_mul, mul_comm]

/-- **C90** In every network, for all data and all distributions of the latent variables, the exponential of the lower bound
is at most the evidence.  Here only the moments in some linear subspaces are possible (a precision matrix is symmetric). -/
theorem C90_lower_bound_subspace (h : MultSound G (fun _ => 1) V dom) (W : ∀ n, Submodule ℝ ((G.fam n).I → ℝ)) (hW : ∀ n, V n = W n)
    (R : ∀ n, Sampled (G.fam n) (dom n)) (ha : ∀ n, G.ann n = 1)
    (data : G.Moments) (f : ∀ n, G.plate n → ℝ) (s : G.State) (hd : HoldsData data f s)
    (hs : ∀ n, Consistent G dom n s) (hT : ∀ n x, (R n).T x ∈ V n) (hV : ∀ n q, data n q ∈ V n) :
    ENNReal.ofReal (Real.exp (G.bound s)) ≤ evidence G R data f := by
  classical
  choose π hπ hπ' using fun n => exists_projection (W n)
  have hπV : ∀ n v, π n v ∈ V n := fun n v => by rw [hW]; exact hπ n v
  have hπ1 : ∀ n, ∀ v ∈ V n, π n v = v := fun n v hv => hπ' n v (by rw [hW] at hv; exact hv)
  have hc := fun e : Latent G => latent_consistent hs e
  obtain ⟨hqi, hq1⟩ := logApprox_norm R s fun e => (hc e).1
  -- the difference of the logarithms, as a function of the statistics of the latent variables
  let F : (∀ e : Latent G, (G.fam e.1.1).I → ℝ) → ℝ := fun w =>
    jointTerm (assemble data fun e => π e.1.1 (w e)) + dataTerm G f
      - ∑ e : Latent G, ((G.fam e.1.1).cgf (s.phi e.1.1 e.1.2) + s.phi e.1.1 e.1.2 ⬝ᵥ w e)
  have hF : ∀ u e, ∃ a b, ∀ v, F (Function.update u e v) = a ⬝ᵥ v + b := by
    intro u e
    obtain ⟨a, b, hab⟩ := assemble_affine h data (fun e => π e.1.1 (u e)) e hV fun e => hπV _ _
    have hup : ∀ v, (fun e' : Latent G => π e'.1.1 (Function.update u e v e'))
        = Function.update (fun e' : Latent G => π e'.1.1 (u e')) e (π e.1.1 v) := by
      intro v
      funext e'
      by_cases he : e' = e
      · subst he; rw [Function.update_self, Function.update_self]
      · rw [Function.update_of_ne he, Function.update_of_ne he]
    refine ⟨(fun j => a ⬝ᵥ π e.1.1 (Pi.single j 1)) - s.phi e.1.1 e.1.2, b + dataTerm G f - (G.fam e.1.1).cgf (s.phi e.1.1 e.1.2)
      - ∑ e' ∈ Finset.univ.erase e, ((G.fam e'.1.1).cgf (s.phi e'.1.1 e'.1.2) + s.phi e'.1.1 e'.1.2 ⬝ᵥ u e'), fun v => ?_⟩
    simp only [F]
    rw [hup, hab _ (hπV _ _), dotProduct_linear, ← Finset.add_sum_erase _ _ (Finset.mem_univ e), Function.update_self, sub_dotProduct]
    rw [Finset.sum_congr rfl fun e' he' => by rw [Function.update_of_ne (Finset.ne_of_mem_erase he')]]
    ring
  have hdiff : ∀ z, logJoint G R data f z - logApprox R s z = F fun e => (R e.1.1).T (z e) := by
    intro z
    have e : (fun e : Latent G => π e.1.1 ((R e.1.1).T (z e))) = fun e => (R e.1.1).T (z e) :=
      funext fun e => hπ1 _ _ (hT _ _)
    rw [logJoint_eq]
    simp only [F, logApprox, Finset.sum_add_distrib, e]
    ring
  have hexp : ∀ z, Real.exp (logApprox R s z) = ∏ e : Latent G, Real.exp (s.phi e.1.1 e.1.2 ⬝ᵥ (R e.1.1).T (z e)
      + (G.fam e.1.1).cgf (s.phi e.1.1 e.1.2) + (R e.1.1).fx (z e)) := fun z => by rw [logApprox, Real.exp_sum]
  have hi : ∀ e : Latent G, Integrable (fun x => Real.exp (s.phi e.1.1 e.1.2 ⬝ᵥ (R e.1.1).T x
      + (G.fam e.1.1).cgf (s.phi e.1.1 e.1.2) + (R e.1.1).fx x)) (R e.1.1).vol := by
    intro e
    by_contra hu
    have := (R e.1.1).norm _ (hc e).1
    rw [integral_undef hu] at this
    exact zero_ne_one this
  have hE := multiAffine_expectation (fun e : Latent G => (R e.1.1).vol)
    (fun e x => Real.exp (s.phi e.1.1 e.1.2 ⬝ᵥ (R e.1.1).T x + (G.fam e.1.1).cgf (s.phi e.1.1 e.1.2) + (R e.1.1).fx x))
    (fun e => (R e.1.1).T) (fun e => s.u e.1.1 e.1.2) hi (fun e => (R e.1.1).norm _ (hc e).1)
    (fun e i => by simpa only [mul_comm] using (R e.1.1).int _ (hc e).1 i)
    (fun e i => by
      rw [(hc e).2.1, ← (R e.1.1).mean _ (hc e).1 i]
      simp only [mul_comm]) F hF
  simp only [← hexp, ← hdiff] at hE
  have hb : F (fun e => s.u e.1.1 e.1.2) = G.bound s := by
    rw [bound_eq s ha, dataTerm_eq data f s hd]
    simp only [F]
    have e : (fun e : Latent G => π e.1.1 (s.u e.1.1 e.1.2)) = fun e : Latent G => s.u e.1.1 e.1.2 :=
      funext fun e : Latent G => hπ1 _ _ (((hc e).2.1).symm ▸ h.mom _ _ (hc e).1)
    rw [e, assemble_self data f s hd, Finset.sum_congr rfl fun e _ => by rw [← (hc e).2.2]]
  rw [hb] at hE
  rw [← hE.2]
  refine exp_expectation_le _ _ _ ?_ hqi hq1 hE.1
  -- measurability
  have hml : Measurable (logApprox R s) := by
    unfold logApprox
    refine Finset.measurable_sum _ fun e _ => ?_
    refine Measurable.add (Measurable.add_const ?_ _) ((R e.1.1).measF.comp (measurable_pi_apply e))
    unfold dotProduct
    exact Finset.measurable_sum _ fun i _ => (((R e.1.1).measT i).comp (measurable_pi_apply e)).const_mul _
  have e1 : logJoint G R data f = fun z => Real.exp (-logApprox R s z)
      * (Real.exp (logApprox R s z) * (logJoint G R data f z - logApprox R s z)) + logApprox R s z := by
    funext z
    rw [← mul_assoc, ← Real.exp_add, neg_add_cancel, Real.exp_zero]
    ring
  rw [e1]
  exact (((Real.measurable_exp.comp hml.neg).aemeasurable).mul hE.1.aestronglyMeasurable.aemeasurable).add hml.aemeasurable

/-- **C90** In every network, for all data and all distributions of the latent variables, the exponential of the lower bound
is at most the evidence. -/
theorem C90_lower_bound (h : NetSound G dom) (R : ∀ n, Sampled (G.fam n) (dom n)) (ha : ∀ n, G.ann n = 1)
    (data : G.Moments) (f : ∀ n, G.plate n → ℝ) (s : G.State) (hd : HoldsData data f s)
    (hs : ∀ n, Consistent G dom n s) :
    ENNReal.ofReal (Real.exp (G.bound s)) ≤ evidence G R data f :=
  C90_lower_bound_subspace (NetSound.multSound h) (fun _ => ⊤) (fun _ => rfl) R ha data f s hd hs (fun _ _ => Set.mem_univ _)
    (fun _ _ => Set.mem_univ _)

/-- **C90** If only one node has latent elements then after its update the bound is exact: its exponential is the evidence.
Here with moments in linear subspaces, as above. -/
theorem C90_exact_subspace (h : MultSound G (fun _ => 1) V dom) (R : ∀ n, Sampled (G.fam n) (dom n)) (ha : ∀ n, G.ann n = 1)
    (data : G.Moments) (f : ∀ n, G.plate n → ℝ) (s : G.State) (hd : HoldsData data f s) (n : G.N)
    (hb : ∀ q, G.bias n q = 0) (hone : ∀ n', n' ≠ n → ∀ q, (G.mask n' q && !G.observed n' q) = false)
    (hnew : ∀ q, G.observed n q = false → G.newPhi n s q ∈ dom n)
    (hmask : ∀ q, G.observed n q = false → G.mask n q = true) (hT : ∀ n x, (R n).T x ∈ V n) (hV : ∀ n q, s.u n q ∈ V n) :
    ENNReal.ofReal (Real.exp (G.bound (G.update n s))) = evidence G R data f := by
  classical
  set s' := G.update n s with hs'
  have hu' : s'.u = Function.update s.u n (s'.u n) := by simp [hs', update, setPhi]
  have hphi : s'.phi n = G.newPhi n s := by simp [hs', update, setPhi]
  have hun : ∀ q, s'.u n q = if !G.observed n q then (G.fam n).mom (G.newPhi n s q) else s.u n q := by
    intro q; simp [hs', update, setPhi]
  have hgn : ∀ q, s'.g n q = if !G.observed n q then (G.fam n).cgf (G.newPhi n s q) else s.g n q := by
    intro q; simp [hs', update, setPhi]
  have hlat : ∀ e : Latent G, e.1.1 = n := by
    intro e
    by_contra hc
    have := hone _ hc e.1.2
    rw [e.2] at this
    exact Bool.noConfusion this
  obtain ⟨b, hj⟩ := jointTerm_affine h n s.u hV
  set a := fun q => (if G.mask n q then (G.fam n).phiP (G.parents n s.u q) else 0) + G.fromChildren n s.u q with had
  have hj' : ∀ v, (∀ q, v q ∈ V n) → jointTerm (Function.update s.u n v) = ∑ q, a q ⬝ᵥ v q + b := hj
  have hV' : ∀ q, s'.u n q ∈ V n := by
    intro q
    rw [hun]
    cases ho : G.observed n q
    · exact h.mom _ _ (hnew q ho)
    · exact hV n q
  have han : ∀ q, (G.mask n q && !G.observed n q) = true → a q = G.newPhi n s q := by
    intro q hq
    simp only [Bool.and_eq_true] at hq
    funext j
    simp [had, newPhi, hq.1, ha n, hb q]
  -- the constant
  let C := b + dataTerm G f + ∑ q, (if (G.mask n q && !G.observed n q) = true then -(G.fam n).cgf (G.newPhi n s q) else a q ⬝ᵥ s.u n q)
  have hsl : ∀ φ : (e : Latent G) → ℝ, ∑ e, φ e
      = ∑ q : G.plate n, if hq : (G.mask n q && !G.observed n q) = true then φ ⟨⟨n, q⟩, hq⟩ else 0 := by
    intro φ
    rw [sum_latent]
    refine Finset.sum_eq_single n (fun n' _ hn' => Finset.sum_eq_zero fun q _ => ?_) (by simp)
    rw [dif_neg (by rw [hone n' hn' q]; exact Bool.noConfusion)]
  have hd' : HoldsData data f s' := by
    refine ⟨fun n' q hq => ?_, hd.2⟩
    by_cases hn' : n' = n
    · subst hn'
      rw [← hd.1 n' q hq, hun]
      cases ho : G.observed n' q
      · rw [hmask q ho, ho] at hq
        exact Bool.noConfusion hq
      · simp
    · rw [← hd.1 n' q hq, hu', Function.update_of_ne hn']
  have hbound : G.bound s' = C := by
    rw [bound_eq s' ha, hu', hj' _ hV', dataTerm_eq data f s' hd', hsl, ← hu']
    simp only [C]
    have e : ∀ q, a q ⬝ᵥ s'.u n q
          - (if h : (G.mask n q && !G.observed n q) = true then s'.g n q + s'.phi n q ⬝ᵥ s'.u n q else 0)
        = if (G.mask n q && !G.observed n q) = true then -(G.fam n).cgf (G.newPhi n s q) else a q ⬝ᵥ s.u n q := by
      intro q
      by_cases hq : (G.mask n q && !G.observed n q) = true
      · have ho : G.observed n q = false := by simp only [Bool.and_eq_true, Bool.not_eq_true'] at hq; exact hq.2
        rw [dif_pos hq, if_pos hq, han q hq, hgn, hphi, ho]
        simp
      · rw [dif_neg hq, if_neg hq, sub_zero, hun]
        cases ho : G.observed n q
        · rw [hmask q ho, ho] at hq
          exact absurd rfl hq
        · simp
    have hs := Finset.sum_congr rfl fun q (_ : q ∈ (Finset.univ : Finset (G.plate n))) => e q
    rw [Finset.sum_sub_distrib] at hs
    linarith
  have hpt : ∀ z, logJoint G R data f z = logApprox R s' z + C := by
    intro z
    have ea : (assemble data fun e => (R e.1.1).T (z e)) = Function.update s.u n fun q =>
        if hq : (G.mask n q && !G.observed n q) = true then (R n).T (z ⟨⟨n, q⟩, hq⟩) else s.u n q := by
      funext n' q
      by_cases hn' : n' = n
      · subst hn'
        rw [Function.update_self]
        unfold assemble
        by_cases hq : (G.mask n' q && !G.observed n' q) = true
        · rw [dif_pos hq, dif_pos hq]
        · rw [dif_neg hq, dif_neg hq, hd.1 n' q (by simpa using hq)]
      · rw [Function.update_of_ne hn']
        unfold assemble
        have hq := hone n' hn' q
        rw [dif_neg (by rw [hq]; exact Bool.noConfusion), hd.1 n' q hq]
    have hVz : ∀ q, (if hq : (G.mask n q && !G.observed n q) = true then (R n).T (z ⟨⟨n, q⟩, hq⟩) else s.u n q) ∈ V n := by
      intro q
      by_cases hq : (G.mask n q && !G.observed n q) = true
      · rw [dif_pos hq]; exact hT _ _
      · rw [dif_neg hq]; exact hV n q
    rw [logJoint_eq, ea, hj' _ hVz, hsl, logApprox, hsl]
    simp only [C]
    have e : ∀ q, a q ⬝ᵥ (if hq : (G.mask n q && !G.observed n q) = true then (R n).T (z ⟨⟨n, q⟩, hq⟩) else s.u n q)
          + (if hq : (G.mask n q && !G.observed n q) = true then (R n).fx (z ⟨⟨n, q⟩, hq⟩) else 0)
        = (if hq : (G.mask n q && !G.observed n q) = true then
            s'.phi n q ⬝ᵥ (R n).T (z ⟨⟨n, q⟩, hq⟩) + (G.fam n).cgf (s'.phi n q) + (R n).fx (z ⟨⟨n, q⟩, hq⟩) else 0)
          + (if (G.mask n q && !G.observed n q) = true then -(G.fam n).cgf (G.newPhi n s q) else a q ⬝ᵥ s.u n q) := by
      intro q
      by_cases hq : (G.mask n q && !G.observed n q) = true
      · rw [dif_pos hq, dif_pos hq, dif_pos hq, if_pos hq, han q hq, hphi]
        ring
      · rw [dif_neg hq, dif_neg hq, dif_neg hq, if_neg hq]
        ring
    have hs := Finset.sum_congr rfl fun q (_ : q ∈ (Finset.univ : Finset (G.plate n))) => e q
    rw [Finset.sum_add_distrib, Finset.sum_add_distrib] at hs
    linarith
  obtain ⟨hqi, hq1⟩ := logApprox_norm R s' fun e => by
    obtain ⟨⟨n', q⟩, he⟩ := e
    have hn' : n' = n := hlat ⟨⟨n', q⟩, he⟩
    subst hn'
    simp only [Bool.and_eq_true, Bool.not_eq_true'] at he
    change s'.phi n' q ∈ dom n'
    rw [hphi]
    exact hnew q he.2
  unfold evidence
  simp only [hpt, Real.exp_add, ENNReal.ofReal_mul (Real.exp_pos _).le]
  rw [lintegral_mul_const' _ _ ENNReal.ofReal_ne_top,
    ← ofReal_integral_eq_lintegral_ofReal hqi (Filter.Eventually.of_forall fun z => (Real.exp_pos _).le), hq1,
    ENNReal.ofReal_one, one_mul, hbound]

/-- **C90** If only one node has latent elements then after its update the bound is exact: its exponential is the evidence. -/
theorem C90_exact (h : NetSound G dom) (R : ∀ n, Sampled (G.fam n) (dom n)) (ha : ∀ n, G.ann n = 1)
    (data : G.Moments) (f : ∀ n, G.plate n → ℝ) (s : G.State) (hd : HoldsData data f s) (n : G.N)
    (hb : ∀ q, G.bias n q = 0) (hone : ∀ n', n' ≠ n → ∀ q, (G.mask n' q && !G.observed n' q) = false)
    (hnew : ∀ q, G.observed n q = false → G.newPhi n s q ∈ dom n)
    (hmask : ∀ q, G.observed n q = false → G.mask n q = true) :
    ENNReal.ofReal (Real.exp (G.bound (G.update n s))) = evidence G R data f :=
  C90_exact_subspace (NetSound.multSound h) R ha data f s hd n hb hone hnew hmask (fun _ _ => Set.mem_univ _)
    fun _ _ => Set.mem_univ _

end Verif
