import Verif.Model.PlateMultiplier
import Verif.Props.LowerBound
import Verif.Props.PhiBias
import Verif.Props.SumMultiply

/-!
# C23 with plate multipliers
-/

namespace Verif
open Spec Net

/-! ### the factor of the messages -/

theorem prod_axisLen (l : List ℕ) : ((List.range l.length).map (axisLen l)).prod = l.prod := by
  have e : (List.range l.length).map (axisLen l) = l.reverse := by
    refine List.ext_getElem (by simp) fun i h1 h2 => ?_
    simp only [List.getElem_map, List.getElem_range, axisLen]
    rw [List.getElem?_eq_getElem h2, Option.getD_some]
  rw [e, List.prod_reverse]

theorem prod_axisLen_le (l : List ℕ) (n : ℕ) (h : l.length ≤ n) : ((List.range n).map (axisLen l)).prod = l.prod := by
  obtain ⟨m, rfl⟩ := Nat.exists_eq_add_of_le h
  rw [List.range_add, List.map_append, List.prod_append, prod_axisLen]
  have : ((List.range m).map (l.length + ·)).map (axisLen l) = (List.range m).map fun _ => 1 := by
    rw [List.map_map]
    refine List.map_congr_left fun i _ => ?_
    simp [axisLen]
  rw [this]
  simp

theorem prod_filter_split (L : List ℕ) (f g : ℕ → ℕ) (h : ∀ k, g k = 1 ∨ g k = f k) :
    (L.map f).prod = ((L.filter fun k => decide (g k = 1)).map f).prod * (L.map g).prod := by
  induction L with
  | nil => rfl
  | cons k L ih =>
    by_cases hk : g k = 1
    · simp only [List.map_cons, List.prod_cons, List.filter_cons, hk, decide_true, if_true, ih]
      ring
    · have := (h k).resolve_left hk
      simp only [List.map_cons, List.prod_cons, List.filter_cons, hk, decide_false, Bool.false_eq_true, if_false, ih]
      rw [this]
      ring

/-- The factor `r` which `_message_to_parent` computes from the multipliers of the child and of the parent makes up for
the difference: the multipliers of the child are `r` times those of the parent. -/
theorem C23_multiplier_factor (child parent : List ℕ) (r : ℕ) (h : broadcastingMultiplier child [parent] = .ok r) :
    child.prod = r * parent.prod := by
  have hb : BroadcastsTo parent child := by
    by_contra hcon
    rw [broadcastingMultiplier_error (by simpa using hcon)] at h
    exact absurd h (by simp)
  rw [C04_multiplier_value, if_pos (by simpa using hb)] at h
  have h' := (Except.ok.inj h).symm
  simp only [List.mem_singleton, forall_eq] at h'
  rw [h', ← prod_axisLen child, ← prod_axisLen_le parent child.length hb.1]
  exact prod_filter_split _ _ _ hb.2

example : broadcastingMultiplier [10, 3] [[3]] = .ok 10 ∧ [10, 3].prod = 10 * [3].prod := by decide

/-! ### the network -/

/-- `NetSound` with the multipliers, and where only some moments are possible: the message which arrives at a node, times
the multiplier of the node, is adjoint to the message of the child, times the multiplier of the child, for all moments in
the sets `V`.  (For instance, the mean of a Wishart distribution is a symmetric matrix.) -/
structure Spec.MultSound (G : Net) (mult : G.N → ℝ) (V dom : ∀ n, Set ((G.fam n).I → ℝ)) : Prop where
  fam : ∀ n, FamilySound (G.fam n) (dom n)
  mom : ∀ n, ∀ phi ∈ dom n, (G.fam n).mom phi ∈ V n
  ann : ∀ n, 0 < G.ann n
  pos : ∀ n, 0 < mult n
  own : ∀ n k u v, G.slot n k (Function.update u n v) = G.slot n k u
  one : ∀ c n k k', k ≠ k' → (∀ u v, G.slot c k (Function.update u n v) = G.slot c k u) ∨
    (∀ u v, G.slot c k' (Function.update u n v) = G.slot c k' u)
  adjoint : ∀ c k n u m, (∀ n q, u n q ∈ V n) → ∃ r, ∀ v, (∀ q, v q ∈ V n) →
    mult c * ∑ p, m p ⬝ᵥ G.slot c k (Function.update u n v) p = mult n * ∑ q, G.back c k n u m q ⬝ᵥ v q + r
  back : ∀ n k u m, G.back n k n u m = 0
  mask : ∀ c k n u m, (∀ p, G.mask c p = false → m p = 0) → ∀ q, G.mask n q = false → G.back c k n u m q = 0

theorem NetSound.multSound {G : Net} {dom} (h : NetSound G dom) : MultSound G (fun _ => 1) (fun _ => Set.univ) dom where
  fam := h.fam
  mom := fun _ _ _ => Set.mem_univ _
  ann := h.ann
  pos := fun _ => one_pos
  own := h.own
  one := h.one
  adjoint := fun c k n u m _ => by
    obtain ⟨r, hr⟩ := h.adjoint c k n u m
    exact ⟨r, fun v _ => by rw [one_mul, one_mul, hr]⟩
  back := fun n k u m => NetSound.back_zero h n k n u m fun u v => h.own n k u v
  mask := h.mask

theorem multBound_one (G : Net) (s : G.State) : G.multBound (fun _ => 1) s = G.bound s := by
  simp [multBound, bound]

namespace MultSound
variable {G : Net} {mult : G.N → ℝ} {V dom : ∀ n, Set ((G.fam n).I → ℝ)}

theorem back_sub (h : MultSound G mult V dom) (c k n u m v w) (hu : ∀ n q, u n q ∈ V n) (hv : ∀ q, v q ∈ V n)
    (hw : ∀ q, w q ∈ V n) : mult c * ∑ p, m p ⬝ᵥ (G.slot c k (Function.update u n v) p - G.slot c k (Function.update u n w) p)
      = mult n * ∑ q, G.back c k n u m q ⬝ᵥ (v q - w q) := by
  obtain ⟨r, hr⟩ := h.adjoint c k n u m hu
  simp only [dotProduct_sub, Finset.sum_sub_distrib, mul_sub, hr v hv, hr w hw]
  ring

theorem setPhi_mem (n : G.N) (s : G.State) (phi) (hV : ∀ n q, s.u n q ∈ V n)
    (hphi : ∀ q, G.observed n q = false → (G.fam n).mom (phi q) ∈ V n) : ∀ q, (G.setPhi n phi s).u n q ∈ V n := by
  intro q
  have : (G.setPhi n phi s).u n q = if !G.observed n q then (G.fam n).mom (phi q) else s.u n q := by simp [setPhi]
  rw [this]
  cases ho : G.observed n q
  · exact hphi q ho
  · exact hV n q

theorem parents_one (h : MultSound G mult V dom) (c n : G.N) (u : G.Moments) (v) (p : G.plate c) (k k' : (G.fam c).K)
    (hk : k ≠ k') : G.parents c (Function.update u n v) p k = G.parents c u p k ∨
      G.parents c (Function.update u n v) p k' = G.parents c u p k' := by
  rcases h.one c n k k' hk with h1 | h1
  · exact Or.inl (by unfold parents; rw [h1])
  · exact Or.inr (by unfold parents; rw [h1])

theorem other_diff (h : MultSound G mult V dom) (c n : G.N) (hcn : c ≠ n) (s : G.State) (phi)
    (hV : ∀ n q, s.u n q ∈ V n) (hphi : ∀ q, G.observed n q = false → (G.fam n).mom (phi q) ∈ V n) :
    (∑ p, if G.mask c p then G.contribution c (G.setPhi n phi s) p else 0) * mult c
      - (∑ p, if G.mask c p then G.contribution c s p else 0) * mult c
      = mult n * ∑ k, ∑ q, G.back c k n s.u (G.message c k s.u) q ⬝ᵥ ((G.setPhi n phi s).u n q - s.u n q) := by
  have hu : (G.setPhi n phi s).u = Function.update s.u n ((G.setPhi n phi s).u n) := by
    simp [setPhi]
  have huc : (G.setPhi n phi s).u c = s.u c := by rw [hu, Function.update_of_ne hcn]
  have hgc : (G.setPhi n phi s).g c = s.g c := by simp [setPhi, hcn]
  have hpc : (G.setPhi n phi s).phi c = s.phi c := by simp [setPhi, hcn]
  have hfc : (G.setPhi n phi s).f c = s.f c := rfl
  rw [← sub_mul, ← Finset.sum_sub_distrib, Finset.mul_sum]
  have hk : ∀ k, mult n * ∑ q, G.back c k n s.u (G.message c k s.u) q ⬝ᵥ ((G.setPhi n phi s).u n q - s.u n q)
      = mult c * ∑ p, G.message c k s.u p ⬝ᵥ (G.slot c k (G.setPhi n phi s).u p - G.slot c k s.u p) := by
    intro k
    rw [← back_sub h c k n s.u _ _ _ hV (setPhi_mem n s phi hV hphi) (hV n), ← hu, Function.update_eq_self]
  rw [Finset.sum_congr rfl fun k _ => hk k, ← Finset.mul_sum, mul_comm, Finset.sum_comm]
  congr 1
  refine Finset.sum_congr rfl fun p _ => ?_
  cases hm : G.mask c p
  · simp [message_masked c _ s.u p hm]
  · rw [if_pos rfl, if_pos rfl, contribution_eq, contribution_eq, huc, hgc, hpc, hfc]
    have hd := FamilySound.diff (h.fam c) (s.u c p) (G.parents c s.u p) (G.parents c (G.setPhi n phi s).u p)
      (fun k k' hkk => by rw [hu]; exact parents_one h c n s.u _ p k k' hkk)
    rw [add_sub_add_right_eq_sub, hd]
    refine Finset.sum_congr rfl fun k _ => ?_
    have e : G.message c k s.u p = (G.fam c).msg k (s.u c p) (G.parents c s.u p) := by
      funext i; simp [message, hm]
    rw [e]
    rfl

theorem bound_setPhi (h : MultSound G mult V dom) (n : G.N) (s : G.State) (hV : ∀ n q, s.u n q ∈ V n) :
    ∃ C, ∀ phi, (∀ q, G.observed n q = false → (G.fam n).mom (phi q) ∈ V n) → G.multBound mult (G.setPhi n phi s)
      = C + mult n * ∑ q, if G.mask n q && !G.observed n q then elementBound n s q (phi q) else 0 := by
  refine ⟨∑ c ∈ Finset.univ.erase n, (∑ p, if G.mask c p then G.contribution c s p else 0) * mult c
      + mult n * (-(∑ q, (if G.mask n q && !G.observed n q then G.fromChildren n s.u q ⬝ᵥ s.u n q else 0))
      + ∑ q, (if G.mask n q then (G.fam n).cgfP (G.parents n s.u q) else 0)
      + ∑ q, (if G.mask n q && G.observed n q then
          (G.fam n).phiP (G.parents n s.u q) ⬝ᵥ s.u n q + s.f n q else 0)), fun phi hphi => ?_⟩
  have hu : (G.setPhi n phi s).u = Function.update s.u n ((G.setPhi n phi s).u n) := by
    simp [setPhi]
  have hpar : ∀ q, G.parents n (G.setPhi n phi s).u q = G.parents n s.u q := by
    intro q; funext k; unfold parents; rw [hu, h.own]
  have hothers : ∑ c ∈ Finset.univ.erase n, (∑ p, if G.mask c p then G.contribution c (G.setPhi n phi s) p else 0) * mult c
      = ∑ c ∈ Finset.univ.erase n, (∑ p, if G.mask c p then G.contribution c s p else 0) * mult c
        + mult n * ∑ q, G.fromChildren n s.u q ⬝ᵥ ((G.setPhi n phi s).u n q - s.u n q) := by
    rw [← sub_eq_iff_eq_add', ← Finset.sum_sub_distrib,
      Finset.sum_congr rfl fun c hc => other_diff h c n (Finset.ne_of_mem_erase hc) s phi hV hphi, ← Finset.mul_sum]
    have hn : ∑ k, ∑ q, G.back n k n s.u (G.message n k s.u) q ⬝ᵥ ((G.setPhi n phi s).u n q - s.u n q) = 0 := by
      refine Finset.sum_eq_zero fun k _ => Finset.sum_eq_zero fun q _ => ?_
      rw [h.back]
      simp
    rw [← add_zero (∑ c ∈ _, _), ← hn, Finset.sum_erase_add _ _ (Finset.mem_univ n)]
    have : ∀ q, G.fromChildren n s.u q = ∑ c, ∑ k, G.back c k n s.u (G.message c k s.u) q := by
      intro q; funext j; simp [fromChildren, Finset.sum_apply]
    simp only [this, sum_dotProduct]
    congr 1
    rw [Finset.sum_comm]
    refine Finset.sum_congr rfl fun c _ => ?_
    rw [Finset.sum_comm]
  unfold multBound
  rw [← Finset.sum_erase_add _ _ (Finset.mem_univ n), hothers]
  have hzero : ∀ q, G.mask n q = false → G.fromChildren n s.u q = 0 := by
    intro q hq
    funext j
    unfold fromChildren
    refine Finset.sum_eq_zero fun c _ => Finset.sum_eq_zero fun k _ => ?_
    rw [h.mask c k n s.u _ (fun p hp => message_masked c k s.u p hp) q hq]
    rfl
  suffices hq : ∀ q, G.fromChildren n s.u q ⬝ᵥ ((G.setPhi n phi s).u n q - s.u n q)
      + (if G.mask n q then G.contribution n (G.setPhi n phi s) q else 0)
      = -(if G.mask n q && !G.observed n q then G.fromChildren n s.u q ⬝ᵥ s.u n q else 0)
        + (if G.mask n q then (G.fam n).cgfP (G.parents n s.u q) else 0)
        + (if G.mask n q && G.observed n q then (G.fam n).phiP (G.parents n s.u q) ⬝ᵥ s.u n q + s.f n q else 0)
        + (if G.mask n q && !G.observed n q then elementBound n s q (phi q) else 0) by
    have hs := Finset.sum_congr rfl fun q (_ : q ∈ (Finset.univ : Finset (G.plate n))) => hq q
    simp only [Finset.sum_add_distrib, Finset.sum_neg_distrib] at hs
    have hs' := congrArg (mult n * ·) hs
    simp only [mul_add] at hs' ⊢
    linarith
  intro q
  have hphi : (G.setPhi n phi s).phi n = phi := by simp [setPhi]
  have huq : (G.setPhi n phi s).u n q = if !G.observed n q then (G.fam n).mom (phi q) else s.u n q := by simp [setPhi]
  have hgq : (G.setPhi n phi s).g n q = if !G.observed n q then (G.fam n).cgf (phi q) else s.g n q := by simp [setPhi]
  have hfq : (G.setPhi n phi s).f n q = s.f n q := rfl
  cases hm : G.mask n q
  · simp [hzero q hm]
  · rw [contribution_eq, hpar, hphi, huq, hgq, hfq]
    cases ho : G.observed n q
    · simp only [Bool.not_false, if_true, Bool.and_true, Bool.and_false, Bool.false_eq_true, if_false, elementBound,
        target, dotProduct_sub, add_dotProduct]
      ring
    · simp only [Bool.not_true, if_true, Bool.and_true, Bool.and_false, Bool.false_eq_true, if_false, sub_self,
        dotProduct_zero]
      ring

theorem elementBound_le (h : MultSound G mult V dom) (n : G.N) (s : G.State) (hb : ∀ q, G.bias n q = 0) (q : G.plate n)
    (phi : (G.fam n).I → ℝ) (hphi : phi ∈ dom n) (hnew : G.newPhi n s q ∈ dom n) :
    elementBound n s q phi ≤ elementBound n s q (G.newPhi n s q) := by
  have ha := h.ann n
  have e : target n s q = (1 / G.ann n) • G.newPhi n s q := by
    funext j
    simp only [target, newPhi, hb, Pi.add_apply, Pi.zero_apply, add_zero, Pi.smul_apply, smul_eq_mul]
    field_simp
  have ht := (h.fam n).tangent phi hphi _ hnew
  unfold Tangent at ht
  rw [dotProduct_sub] at ht
  unfold elementBound
  rw [e, smul_dotProduct, smul_dotProduct, smul_eq_mul, smul_eq_mul, ← mul_sub, ← mul_sub]
  refine mul_le_mul_of_nonneg_left ?_ (by positivity)
  rw [dotProduct_comm _ phi, dotProduct_comm _ (G.newPhi n s q)] at ht
  linarith

end MultSound

/-- **C23** with plate multipliers: of all distributions the node could have, the one which `update` sets gives the
largest lower bound. -/
theorem C23_multiplier_maximiser (G : Net) (mult : G.N → ℝ) (V dom) (h : MultSound G mult V dom) (n : G.N) (s : G.State)
    (hV : ∀ n q, s.u n q ∈ V n) (hb : ∀ q, G.bias n q = 0) (hnew : ∀ q, G.observed n q = false → G.newPhi n s q ∈ dom n)
    (phi : G.plate n → (G.fam n).I → ℝ) (hphi : ∀ q, G.observed n q = false → phi q ∈ dom n) :
    G.multBound mult (G.setPhi n phi s) ≤ G.multBound mult (G.update n s) := by
  obtain ⟨C, hC⟩ := MultSound.bound_setPhi h n s hV
  rw [update, hC _ fun q ho => h.mom n _ (hphi q ho), hC _ fun q ho => h.mom n _ (hnew q ho)]
  refine (add_le_add_iff_left C).2 (mul_le_mul_of_nonneg_left (Finset.sum_le_sum fun q _ => ?_) (h.pos n).le)
  cases ho : G.observed n q
  · cases hm : G.mask n q
    · simp
    · simp only [Bool.not_false, Bool.and_true, if_true]
      exact MultSound.elementBound_le h n s hb q _ (hphi q ho) (hnew q ho)
  · simp

/-- **C23** with plate multipliers: an update never decreases the lower bound. -/
theorem C23_multiplier_update (G : Net) (mult : G.N → ℝ) (V dom) (h : MultSound G mult V dom) (n : G.N) (s : G.State)
    (hV : ∀ n q, s.u n q ∈ V n) (hb : ∀ q, G.bias n q = 0) (hs : Consistent G dom n s)
    (hnew : ∀ q, G.observed n q = false → G.newPhi n s q ∈ dom n) :
    G.multBound mult s ≤ G.multBound mult (G.update n s) := by
  have := C23_multiplier_maximiser G mult V dom h n s hV hb hnew (s.phi n) fun q ho => (hs q ho).1
  rwa [setPhi_self G dom n s hs] at this

/-- **C23** with plate multipliers for all sequences of updates. -/
theorem C23_multiplier_sequence (G : Net) (mult : G.N → ℝ) (V dom) (h : MultSound G mult V dom)
    (hb : ∀ n q, G.bias n q = 0) (s s' : G.State) (ns : List G.N) (hV : ∀ n q, s.u n q ∈ V n)
    (hs : ∀ n, Consistent G dom n s) (hr : Updates G dom s ns s') :
    G.multBound mult s ≤ G.multBound mult s' ∧ (∀ n q, s'.u n q ∈ V n) ∧ ∀ n, Consistent G dom n s' := by
  induction hr with
  | nil s => exact ⟨le_refl _, hV, hs⟩
  | cons s n ns s' hnew _ ih =>
    have hV' : ∀ n' q, (G.update n s).u n' q ∈ V n' := by
      intro n' q
      by_cases hn : n' = n
      · subst hn
        exact MultSound.setPhi_mem n' s _ hV (fun q ho => h.mom n' _ (hnew q ho)) q
      · have : (G.update n s).u n' = s.u n' := by simp [update, setPhi, hn]
        rw [this]
        exact hV n' q
    obtain ⟨h1, h2⟩ := ih hV' (consistent_update G dom n s hnew hs)
    exact ⟨(C23_multiplier_update G mult V dom h n s hV (hb n) (hs n) hnew).trans h1, h2⟩

/-! ### counts of which only some are used -/

/-- The rate of the counts of a subset, where every count stands for `k` counts:

    lam = Gamma(a0, b0)
    x = Poisson(lam, plates=(n,), plates_multiplier=(k,))
    x.observe(data)
-/
structure MCParams where
  n : ℕ
  k : ℝ
  a0 : ℝ
  b0 : ℝ

variable (P : MCParams)

def mcPlate : GP → Type
  | .lam => Unit
  | .x => Fin P.n

instance : ∀ n, Fintype (mcPlate P n)
  | .lam => inferInstanceAs (Fintype Unit)
  | .x => inferInstanceAs (Fintype (Fin P.n))

abbrev MCMoments := (n : GP) → mcPlate P n → (gpFam n).I → ℝ

noncomputable def mcSlot : (c : GP) → (k : (gpFam c).K) → MCMoments P → mcPlate P c → (gpFam c).P k → ℝ
  | .lam => fun k _ _ => if (show Fin 2 from k) = 0 then gammaPriorFixed P.a0 else gammaFixed P.b0
  | .x => fun _ u _ => u .lam ()

/-- the message to `lam` is summed over the plates and multiplied by `k` -/
noncomputable def mcBack : (c : GP) → (k : (gpFam c).K) → (n : GP) → MCMoments P → (mcPlate P c → (gpFam c).P k → ℝ) →
    mcPlate P n → (gpFam n).I → ℝ
  | .x => fun _ n _ m => match n with
    | .lam => fun _ => P.k • ∑ p : Fin P.n, m p
    | .x => fun _ _ => 0
  | .lam => fun _ _ _ _ _ _ => 0

noncomputable def mcNet : Net where
  N := GP
  fam := gpFam
  plate := mcPlate P
  ann := fun _ => 1
  bias := fun _ _ _ => 0
  observed := fun n _ => n == GP.x
  mask := fun _ _ => true
  slot := mcSlot P
  back := mcBack P

def mcMult : GP → ℝ
  | .lam => 1
  | .x => P.k

theorem mult_adjoint_zero (G : Net) (mult : G.N → ℝ) (V : ∀ n, Set ((G.fam n).I → ℝ)) (c k n u m) (hs : ∀ v, G.slot c k (Function.update u n v) = G.slot c k u)
    (hb : G.back c k n u m = 0) :
    ∃ r, ∀ v, (∀ q, v q ∈ V n) →
      mult c * ∑ p, m p ⬝ᵥ G.slot c k (Function.update u n v) p = mult n * ∑ q, G.back c k n u m q ⬝ᵥ v q + r :=
  ⟨mult c * ∑ p, m p ⬝ᵥ G.slot c k u p, fun v _ => by rw [hs, hb]; simp⟩

theorem mc_adjoint {n : ℕ} (k : ℝ) (m : Fin n → Fin 2 → ℝ) (v : Fin 2 → ℝ) :
    k * ∑ p, m p ⬝ᵥ v = 1 * ∑ _q : Unit, (k • ∑ p, m p) ⬝ᵥ v + 0 := by
  rw [Fintype.sum_unique (ι := Unit), smul_dotProduct, sum_dotProduct, smul_eq_mul]
  ring

theorem mc_sound (hk : 0 < P.k) : MultSound (mcNet P) (mcMult P) (fun _ => Set.univ) gpDom where
  mom := fun _ _ _ => Set.mem_univ _
  fam := by
    intro n
    change GP at n
    cases n
    · exact C23_gamma_sound
    · exact C23_poisson_sound
  ann := fun _ => one_pos
  pos := by
    intro n
    change GP at n
    cases n
    · exact one_pos
    · exact hk
  own := by
    intro n k u v
    change GP at n
    cases n <;> rfl
  one := by
    intro c n k k' hk
    change GP at c
    cases c
    · exact Or.inl fun _ _ => rfl
    · exact absurd (Subsingleton.elim (α := Unit) k k') hk
  adjoint := by
    intro c k n u m _
    change GP at c n
    cases c
    · exact mult_adjoint_zero (mcNet P) (mcMult P) (fun _ => Set.univ) _ _ _ _ _ (fun _ => rfl) rfl
    · cases n
      · exact ⟨0, fun v _ => mc_adjoint P.k m (v ())⟩
      · exact mult_adjoint_zero (mcNet P) (mcMult P) (fun _ => Set.univ) _ _ _ _ _ (fun _ => rfl) rfl
  back := by
    intro n k u m
    change GP at n
    cases n <;> rfl
  mask := fun _ _ _ _ _ _ q hq => absurd hq (by simp [mcNet])

/-- the observed counts; the rate has the distribution with the parameters `phi` -/
noncomputable def mcState (data : Fin P.n → ℕ) (phi : Fin 2 → ℝ) : (mcNet P).State where
  phi := fun n => match n with
    | .lam => fun _ => phi
    | .x => fun _ => (![0] : Fin 1 → ℝ)
  u := fun n => match n with
    | .lam => fun _ => gammaMoments phi
    | .x => fun i => poissonFixed (data i)
  g := fun n => match n with
    | .lam => fun _ => gammaCgf phi
    | .x => fun _ => 0
  f := fun n => match n with
    | .lam => fun _ => 0
    | .x => fun i => poissonF (data i)

theorem mc_sum (n : ℕ) (k a b : ℝ) (data : Fin n → ℕ) (j : Fin 2) :
    1 * (gammaPhi (gammaPriorFixed a) (gammaFixed b) j + 0 + (k • ∑ p, poissonMsg (poissonFixed (data p))) j)
      = (![-(b + k * n), a + k * ∑ p, (data p : ℝ)] : Fin 2 → ℝ) j := by
  fin_cases j
  · simp [gammaPhi, gammaPriorFixed, gammaFixed, poissonMsg, poissonFixed, Finset.sum_apply]
    ring
  · simp [gammaPhi, gammaPriorFixed, gammaFixed, poissonMsg, poissonFixed, Finset.sum_apply]

/-- the new distribution: every count is counted `k` times -/
theorem mc_newPhi (data : Fin P.n → ℕ) (phi : Fin 2 → ℝ) :
    (mcNet P).newPhi GP.lam (mcState P data phi) () = (![-(P.b0 + P.k * P.n), P.a0 + P.k * ∑ p, (data p : ℝ)] : Fin 2 → ℝ) := by
  funext j
  have hc : (mcNet P).fromChildren GP.lam (mcState P data phi).u ()
      = (P.k • ∑ p, poissonMsg (poissonFixed (data p)) : Fin 2 → ℝ) := by
    funext j
    have e1 : (mcNet P).fromChildren GP.lam (mcState P data phi).u () j
      = ∑ c : GP, ∑ k, (mcNet P).back c k GP.lam (mcState P data phi).u ((mcNet P).message c k (mcState P data phi).u) () j := rfl
    rw [e1, gp_sum _ (Finset.sum_eq_zero fun _ _ => rfl)]
    exact Fintype.sum_unique (ι := Unit) _
  have e : (mcNet P).newPhi GP.lam (mcState P data phi) () j
      = 1 * ((gammaPhi (gammaPriorFixed P.a0) (gammaFixed P.b0) : Fin 2 → ℝ) j + 0
        + (mcNet P).fromChildren GP.lam (mcState P data phi).u () j) := rfl
  rw [e, hc]
  exact mc_sum P.n P.k P.a0 P.b0 data j

/-- **C23** for a complete model with a plate multiplier: of all gamma distributions of the rate, `update` gives the one
with the largest lower bound, and that is the exact posterior of the counts, each of them counted `k` times. -/
theorem C23_counts_multiplier (ha : 0 < P.a0) (hb : 0 < P.b0) (hk : 0 < P.k) (data : Fin P.n → ℕ) (phi : Fin 2 → ℝ)
    (h0 : phi 0 < 0) (h1 : 0 < phi 1) :
    (mcNet P).multBound (mcMult P) (mcState P data phi)
      ≤ (mcNet P).multBound (mcMult P) ((mcNet P).update GP.lam (mcState P data phi)) ∧
    ((mcNet P).update GP.lam (mcState P data phi)).phi GP.lam ()
      = (![-(P.b0 + P.k * P.n), P.a0 + P.k * ∑ p, (data p : ℝ)] : Fin 2 → ℝ) := by
  have hn := mc_newPhi P data phi
  refine ⟨C23_multiplier_update (mcNet P) (mcMult P) _ gpDom (mc_sound P hk) GP.lam _
    (fun _ _ => Set.mem_univ _) (fun _ => rfl)
    (fun q _ => ⟨⟨h0, h1⟩, rfl, rfl⟩) fun q _ => ?_, ?_⟩
  · change (mcNet P).newPhi GP.lam (mcState P data phi) () ∈ _
    rw [hn]
    have s : (0 : ℝ) ≤ ∑ p, (data p : ℝ) := Finset.sum_nonneg fun _ _ => Nat.cast_nonneg _
    have s2 := mul_nonneg hk.le s
    have s3 : 0 ≤ P.k * P.n := mul_nonneg hk.le (Nat.cast_nonneg _)
    have g : (![-(P.b0 + P.k * P.n), P.a0 + P.k * ∑ p, (data p : ℝ)] : Fin 2 → ℝ) 0 < 0 ∧
        0 < (![-(P.b0 + P.k * P.n), P.a0 + P.k * ∑ p, (data p : ℝ)] : Fin 2 → ℝ) 1 := by
      constructor
      · simp only [Matrix.cons_val_zero]; linarith
      · simp only [Matrix.cons_val_one, Matrix.cons_val_fin_one]; linarith
    exact g
  · refine Eq.trans ?_ hn
    exact congrFun (Function.update_self (β := fun n => mcPlate P n → (gpFam n).I → ℝ) GP.lam
      ((mcNet P).newPhi GP.lam (mcState P data phi)) (mcState P data phi).phi) ()

example : let P : MCParams := { n := 2, k := 10, a0 := 1, b0 := 1 }
    (mcNet P).multBound (mcMult P) (mcState P (fun i => i + 3) ![-1, 1])
      ≤ (mcNet P).multBound (mcMult P) ((mcNet P).update GP.lam (mcState P (fun i => i + 3) ![-1, 1])) :=
  (C23_counts_multiplier { n := 2, k := 10, a0 := 1, b0 := 1 } one_pos one_pos (by norm_num) _ _ (by simp) (by simp)).1

end Verif
