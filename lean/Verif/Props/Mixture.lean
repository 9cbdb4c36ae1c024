import Verif.Model.Mixture
import Verif.Props.Gate

/-!
# C50: mixtures

`P` are the plates of the node, `K` the number of clusters and `cluster_plate = -(g + 1)`; the parameters of the clusters
have the plates `insAxis g K P`.  The element `p` of the node uses the elements `insC g k p` of the parameters and the
probabilities `consC k p` of the clusters.  Coordinates of the variable axes are joined by `joinC`.  All arrays may be
broadcast along plates.
-/

namespace Verif
open Spec

section
variable {α : Type} [CommSemiring α] [DecidableEq α] {P dims Sz : List Nat} {g K : Nat}

theorem whereNonzero_ok {c X : Arr α} {B : List Nat} (hc : BroadcastsTo c.shape B) (hX : BroadcastsTo X.shape B) :
    ∃ w, whereNonzero c X = .ok w ∧ IsBroadcast [c.shape, X.shape] w.shape ∧ BroadcastsTo w.shape B ∧
      ∀ i, w.at i = if c.at i ≠ 0 then X.at i else 0 := by
  obtain ⟨s, hs, hb⟩ := isBroadcast_of_common hc hX
  obtain ⟨w, hw, hws, hat⟩ := npWhere_ok (mask := ⟨c.shape, fun i => decide (c.get i ≠ 0)⟩) (X := X) hs
  refine ⟨w, hw, hws ▸ hs, hws ▸ hb, fun i => ?_⟩
  rw [hat]
  show (if decide (c.at i ≠ 0) = true then X.at i else 0) = _
  simp only [decide_eq_true_eq]

/-- **C50** The natural parameters: `phi(p) = Σ_k z_k(p) phi_k(p)`. -/
theorem C50_phi {z Phi : Arr α} (hg : g ≤ P.length) (hz : z.shape = Sz ++ [K]) (hSz : BroadcastsTo Sz P)
    (hx : BroadcastsTo Phi.shape (insAxis g K P ++ dims)) :
    ∃ v, mixPhi g dims.length z Phi = .ok v ∧ BroadcastsTo v.shape (P ++ dims) ∧
      ∀ d p, ValidIn dims d → ValidIn P p → v.at (joinC dims.length d p) =
        ∑ k ∈ Finset.range K, z.at (consC k p) * Phi.at (joinC dims.length d (insC g k p)) := by
  obtain ⟨z', hz', hzb, hzl, hz0, hzat⟩ := gateZ_ok (dims := dims) hz hSz
  obtain ⟨x', hx', hxb, hxat⟩ := gateX_ok hg hx
  obtain ⟨w, hw, _, hwb, hwat⟩ := whereNonzero_ok hzb hxb
  obtain ⟨y, hy, hyb, hyat⟩ := (sumMultiply_last hzb hwb (.inl ⟨hzl, fun k hk => by
    have : k = 0 := by simpa using hk
    subst this
    rw [hz0, axisLen_single, if_pos rfl]⟩)).2 rfl
  refine ⟨y, ?_, hyb, fun d p hd hp => ?_⟩
  · unfold mixPhi
    rw [hx']
    simp only [bind, Except.bind]
    rw [hz']
    simp only
    rw [hw]
    exact hy
  · rw [hyat _ (validIn_joinC hd hp), sumOver_singleton]
    apply Finset.sum_congr rfl
    intro k _
    simp only [List.length_singleton]
    rw [joinC_one, Function.update_self, hwat, hzat, hxat]
    by_cases h : z.at (consC k p) = 0
    · rw [h, zero_mul, zero_mul]
    · rw [if_pos h]

theorem broadcastsTo_append_right {S P T : List Nat} (h : BroadcastsTo S P) : BroadcastsTo (S ++ T) (P ++ T) := by
  refine ⟨by simpa using h.1, fun k => ?_⟩
  rw [axisLen_append, axisLen_append]
  split
  · exact .inr rfl
  · exact h.2 _

omit [DecidableEq α] in
/-- **C50** The normalisation: `g(p) = Σ_k z_k(p) g_k(p)`. -/
theorem C50_cgf {z cgf : Arr α} (hg : g ≤ P.length) (hz : z.shape = Sz ++ [K]) (hSz : BroadcastsTo Sz P)
    (hx : BroadcastsTo cgf.shape (insAxis g K P)) :
    ∃ v, mixCgf g z cgf = .ok v ∧ BroadcastsTo v.shape P ∧
      ∀ p, ValidIn P p → v.at p = ∑ k ∈ Finset.range K, z.at (consC k p) * cgf.at (insC g k p) := by
  obtain ⟨x', hx', hxb, hxat⟩ := gateX_ok (dims := []) hg (by simpa using hx)
  have hzb : BroadcastsTo z.shape (P ++ [K]) := hz ▸ broadcastsTo_append_right hSz
  obtain ⟨y, hy, hyb, hyat⟩ := (sumMultiply_last hzb (by simpa using hxb) (.inl ⟨by rw [hz]; simp, fun k hk => by
    have : k = 0 := by simpa using hk
    subst this
    rw [hz, axisLen_append, if_pos (by simp)]⟩)).2 rfl
  refine ⟨y, ?_, hyb, fun p hp => ?_⟩
  · unfold mixCgf
    rw [show (0 : Nat) = ([] : List Nat).length by rfl, hx']
    exact hy
  · rw [hyat _ hp, sumOver_singleton]
    apply Finset.sum_congr rfl
    intro k _
    simp only [List.length_singleton]
    rw [joinC_one, Function.update_self]
    have e : ∀ (d p : Nat → Nat), joinC ([] : List Nat).length d p = p := by
      intro d p; funext k; simp [joinC]
    have := hxat k (fun _ => 0) p
    rw [e, e] at this
    rw [this]

omit [DecidableEq α] [CommSemiring α] in
/-- The moments which are passed to the mixed distribution: the same for every cluster. -/
theorem C50_moments_self {u : Arr α} {S : List Nat} (hg : g ≤ S.length) (hu : u.shape = S ++ dims) (hS : BroadcastsTo S P) :
    ∃ v, mixUSelf g dims.length u = .ok v ∧ BroadcastsTo v.shape (insAxis g K P ++ dims) ∧
      ∀ d p k, v.at (joinC dims.length d (insC g k p)) = u.at (joinC dims.length d p) := by
  have hl : u.shape.length = S.length + dims.length := by rw [hu, List.length_append]
  obtain ⟨v, hv, hvl, hvax, hvat⟩ := npExpandDims_ok (X := u) (g := g + dims.length) (by omega)
  have hgP : g ≤ P.length := le_trans hg hS.1
  refine ⟨v, hv, ⟨?_, fun j => ?_⟩, fun d p k => ?_⟩
  · have := hS.1
    rw [hvl, hl, List.length_append, length_insAxis]
    omega
  · rw [hvax, axisLen_append, axisLen_insAxis hgP, hu, axisLen_append, axisLen_append]
    by_cases h1 : j < dims.length
    · right
      rw [if_pos (by omega), if_pos h1, if_pos h1]
    · rw [if_neg h1, if_neg h1]
      by_cases h2 : j < g + dims.length
      · rw [if_pos h2, if_pos (by omega)]
        exact hS.2 _
      · rw [if_neg h2, if_neg (show ¬ j - dims.length < g by omega)]
        by_cases h3 : j = g + dims.length
        · left; rw [if_pos h3]
        · rw [if_neg h3, if_neg (show ¬ j - dims.length = g by omega), if_neg (by omega),
            show j - 1 - dims.length = j - dims.length - 1 by omega]
          exact hS.2 _
  · rw [hvat]
    congr 1
    funext j
    by_cases h1 : j < dims.length
    · rw [if_pos (by omega), joinC_lt _ _ h1, joinC_lt _ _ h1]
    · rw [joinC_ge _ p h1]
      by_cases h2 : j < g + dims.length
      · rw [if_pos h2, joinC_ge _ _ h1]
        unfold insC
        rw [if_pos (by omega)]
      · rw [if_neg h2, joinC_ge _ _ (by omega)]
        unfold insC
        rw [if_neg (by omega), if_neg (by omega)]
        congr 1
        omega

omit [DecidableEq α] in
/-- **C50** The message to the parameters of the clusters: that of the mixed distribution, `m`, weighed by the
probabilities, `z_k(p) m_k(p)`. -/
theorem C50_message_parameters {z m : Arr α} {extra : List Nat} (hg : g ≤ P.length) (hz : z.shape = Sz ++ [K])
    (hSz : BroadcastsTo Sz P) (hm : BroadcastsTo m.shape (insAxis g K P ++ extra ++ dims)) :
    ∃ y, mixMessageParam g extra.length dims.length z m = .ok y ∧
      BroadcastsTo y.shape (insAxis g K P ++ extra ++ dims) ∧
      ∀ d p k, y.at (joinC (extra ++ dims).length d (insC g k p)) =
        z.at (consC k p) * m.at (joinC (extra ++ dims).length d (insC g k p)) := by
  have hzl : z.shape.length = Sz.length + 1 := by rw [hz]; simp
  have hSl := hSz.1
  have hal : (atleastNd z (g + 1)).shape.length = max (g + 1) z.shape.length := by
    show (List.replicate _ 1 ++ z.shape).length = _
    simp
    omega
  have haax : ∀ j, axisLen (atleastNd z (g + 1)).shape j = axisLen z.shape j := by
    intro j
    show axisLen (List.replicate _ 1 ++ z.shape) j = _
    rw [axisLen_append]
    split
    · rfl
    · rw [axisLen_of_ge (s := z.shape) (by omega)]
      unfold axisLen
      rw [List.reverse_replicate, List.getElem?_replicate]
      split <;> rfl
  have haat : ∀ c, (atleastNd z (g + 1)).at c = z.at c := by
    intro c
    show z.get _ = z.get _
    congr 1
    funext k
    unfold restrict
    rw [haax]
  obtain ⟨p', hp', hpl, hpax, hpat⟩ := moveaxis_right (atleastNd z (g + 1)) (f := 0) (t := g) (by omega) (by omega)
  have hpb : BroadcastsTo p'.shape (insAxis g K P) := by
    refine ⟨by rw [hpl, hal, length_insAxis]; omega, fun j => ?_⟩
    rw [hpax, haax, axisLen_insAxis hg, hz, axisLen_append, axisLen_single]
    by_cases h1 : j = g
    · have e : movedAt 0 g j = 0 := by unfold movedAt; split <;> (repeat' split) <;> omega
      right
      rw [e, if_pos (by simp), if_pos rfl, if_neg (by omega), if_pos h1]
    · by_cases h2 : j < g
      · have e : movedAt 0 g j = j + 1 := by unfold movedAt; split <;> (repeat' split) <;> omega
        rw [e, if_neg (by simp), if_pos h2]
        exact hSz.2 _
      · have e : movedAt 0 g j = j := by unfold movedAt; split <;> (repeat' split) <;> omega
        rw [e, if_neg (by simp; omega), if_neg h2, if_neg h1]
        exact hSz.2 _
  have hpat' : ∀ p k, p'.at (insC g k p) = z.at (consC k p) := by
    intro p k
    rw [hpat, haat]
    congr 1
    funext j
    cases j with
    | zero =>
      have e : movedAt g 0 0 = g := by unfold movedAt; split <;> (repeat' split) <;> omega
      rw [e]
      unfold insC
      rw [if_neg (by omega), if_pos rfl]
      rfl
    | succ j =>
      show _ = p j
      unfold insC
      by_cases h : j < g
      · have e : movedAt g 0 (j + 1) = j := by unfold movedAt; split <;> (repeat' split) <;> omega
        rw [e, if_pos h]
      · have e : movedAt g 0 (j + 1) = j + 1 := by unfold movedAt; split <;> (repeat' split) <;> omega
        rw [e, if_neg (by omega), if_neg (by omega), Nat.add_sub_cancel]
  have hwb : BroadcastsTo (addTrailingAxes (addTrailingAxes p' extra.length) dims.length).shape
      (insAxis g K P ++ extra ++ dims) := by
    refine ⟨?_, fun j => ?_⟩
    · show (p'.shape ++ List.replicate _ 1 ++ List.replicate _ 1).length ≤ _
      have := hpb.1
      simp at this ⊢
      omega
    · rw [axisLen_addTrailingAxes, axisLen_addTrailingAxes, axisLen_append, axisLen_append]
      by_cases h1 : j < dims.length
      · left; rw [if_pos h1]
      · rw [if_neg h1, if_neg h1]
        by_cases h2 : j - dims.length < extra.length
        · left; rw [if_pos h2]
        · rw [if_neg h2, if_neg h2]
          exact hpb.2 _
  obtain ⟨y, hy, _, hyb, hyat⟩ := npMul_common hm hwb
  refine ⟨y, ?_, hyb, fun d p k => ?_⟩
  · unfold mixMessageParam
    rw [show (-1 : Int) = -(((0 : Nat) : Int) + 1) by rfl, hp']
    exact hy
  · rw [hyat, addTrailingAxes_at, addTrailingAxes_at, mul_comm]
    congr 1
    rw [← hpat' p k]
    congr 1
    funext j
    rw [joinC_ge _ _ (by simp)]
    congr 1
    simp
    omega

/-- `np.sum` over the last axes -/
theorem npSumLast_ok {β : Type} [AddCommMonoid β] {X : Arr β} {Q : List Nat} (hX : BroadcastsTo X.shape (Q ++ dims))
    (hl : dims.length ≤ X.shape.length) (hfull : ∀ k < dims.length, axisLen X.shape k = axisLen dims k) :
    ∃ y, npSumLast X dims.length = .ok y ∧ BroadcastsTo y.shape Q ∧
      ∀ p, ValidIn Q p → y.at p = sumOver dims fun d => X.at (joinC dims.length d p) := by
  have hd := drop_eq_of_axisLen hl hfull
  have hb := BroadcastsTo.take hX hl
  unfold npSumLast
  rw [if_pos hl]
  refine ⟨_, rfl, hb, fun p hp => ?_⟩
  show sumOver (X.shape.drop _) (fun d => X.get (joinC _ d (restrict _ p))) = _
  rw [hd]
  refine sumOver_congr _ fun i hi => ?_
  have hd' := coord_valid hi
  generalize coord i = d at hd'
  unfold Arr.at
  congr 1
  funext k
  unfold restrict
  by_cases h : k < dims.length
  · rw [joinC_lt _ _ h, joinC_lt _ _ h]
    by_cases h1 : axisLen X.shape k = 1
    · rw [if_pos h1]
      have := hd' k
      rw [← hfull k h, h1] at this
      omega
    · rw [if_neg h1]
  · rw [joinC_ge _ _ h, joinC_ge _ _ h]
    have e : axisLen (X.shape.take (X.shape.length - dims.length)) (k - dims.length) = axisLen X.shape k := by
      have h2 := axisLen_append (X.shape.take (X.shape.length - dims.length)) (X.shape.drop (X.shape.length - dims.length)) k
      rw [List.take_append_drop, hd, if_neg h] at h2
      exact h2.symm
    rw [e]

/-- One moment of a log-density: its shape, the moments and the natural parameters. -/
structure LogTerm (α : Type) where
  dims : List Nat
  u : Arr α
  phi : Arr α

/-- The shapes for plates `Q`. -/
structure LogTerm.Fits (Q : List Nat) (t : LogTerm α) : Prop where
  moments : BroadcastsTo t.u.shape (Q ++ t.dims)
  rank : t.dims.length ≤ t.u.shape.length
  full : ∀ k < t.dims.length, axisLen t.u.shape k = axisLen t.dims k
  parameters : BroadcastsTo t.phi.shape (Q ++ t.dims)

omit [DecidableEq α] in
theorem isBroadcast_full {s t B Q dims : List Nat} (hB : IsBroadcast [s, t] B) (hQ : BroadcastsTo B (Q ++ dims))
    (hl : dims.length ≤ t.length) (hf : ∀ k < dims.length, axisLen t k = axisLen dims k) :
    dims.length ≤ B.length ∧ ∀ k < dims.length, axisLen B k = axisLen dims k := by
  refine ⟨le_trans hl (hB.rank_ge _ (by simp)), fun k hk => ?_⟩
  have h1 := hQ.2 k
  rw [axisLen_append, if_pos hk] at h1
  have h2 := hB.fits k t (by simp)
  rw [hf k hk] at h2
  omega

theorem logpdf_fold {Q : List Nat} (ts : List (LogTerm α)) (hts : ∀ t ∈ ts, t.Fits Q) (L : Arr α)
    (hL : BroadcastsTo L.shape Q) :
    ∃ y, (ts.map fun t => (t.dims.length, t.u, t.phi)).foldlM (fun L t => do
        let w ← whereNonzero t.2.1 t.2.2
        let y ← npMul w t.2.1
        npAdd L (← npSumLast y t.1)) L = Except.ok (ε := PyErr) y ∧
      BroadcastsTo y.shape Q ∧ L.shape.length ≤ y.shape.length ∧
      ∀ p, ValidIn Q p → y.at p = L.at p +
        (ts.map fun t => sumOver t.dims fun d =>
          t.phi.at (joinC t.dims.length d p) * t.u.at (joinC t.dims.length d p)).sum := by
  induction ts generalizing L with
  | nil => exact ⟨L, rfl, hL, le_refl _, fun p _ => by simp⟩
  | cons t ts ih =>
    have ht := hts t (by simp)
    obtain ⟨w, hw, _, hwb, hwat⟩ := whereNonzero_ok ht.moments ht.parameters
    obtain ⟨y, hy, hyB, hyb, hyat⟩ := npMul_common hwb ht.moments
    obtain ⟨f1, f2⟩ := isBroadcast_full hyB hyb ht.rank ht.full
    obtain ⟨v, hv, hvb, hvat⟩ := npSumLast_ok hyb f1 f2
    obtain ⟨L1, hL1, hLB, hLb, hLat⟩ := npAdd_common hL hvb
    obtain ⟨r, hr, hrb, hrl, hrat⟩ := ih (fun t ht => hts t (List.mem_cons_of_mem _ ht)) L1 hLb
    refine ⟨r, ?_, hrb, le_trans (hLB.rank_ge _ (by simp)) hrl, fun p hp => ?_⟩
    · rw [List.map_cons, List.foldlM_cons]
      simp only [bind, Except.bind]
      rw [hw]
      simp only
      rw [hy]
      simp only
      rw [hv]
      simp only
      rw [hL1]
      exact hr
    · rw [hrat p hp, hLat, hvat p hp, List.map_cons, List.sum_cons, add_assoc]
      congr 2
      refine sumOver_congr _ fun i _ => ?_
      rw [hyat, hwat]
      by_cases h : t.u.at (joinC t.dims.length (coord i) p) = 0
      · rw [h, mul_zero, mul_zero]
      · rw [if_pos h]

/-- `compute_logpdf` for arrays of any broadcast shapes: `Σ_i <phi_i, u_i> + g + f` of every plate. -/
theorem C50_logpdf {Q : List Nat} (ts : List (LogTerm α)) (hts : ∀ t ∈ ts, t.Fits Q) {cgf f : Arr α}
    (hc : BroadcastsTo cgf.shape Q) (hf : BroadcastsTo f.shape Q) :
    ∃ y, computeLogpdf cgf f (ts.map fun t => (t.dims.length, t.u, t.phi)) = .ok y ∧ BroadcastsTo y.shape Q ∧
      cgf.shape.length ≤ y.shape.length ∧
      ∀ p, ValidIn Q p → y.at p = cgf.at p + f.at p +
        (ts.map fun t => sumOver t.dims fun d =>
          t.phi.at (joinC t.dims.length d p) * t.u.at (joinC t.dims.length d p)).sum := by
  obtain ⟨L, hL, hLB, hLb, hLat⟩ := npAdd_common hc hf
  obtain ⟨y, hy, hyb, hyl, hyat⟩ := logpdf_fold ts hts L hLb
  refine ⟨y, ?_, hyb, le_trans (hLB.rank_ge _ (by simp)) hyl, fun p hp => ?_⟩
  · unfold computeLogpdf
    rw [hL]
    exact hy
  · rw [hyat p hp, hLat]

/-- What the messages of a mixture with plates `P` are computed from: for each moment, its shape, the moments of the node
and the natural parameters of the clusters. -/
structure LogTerm.FitsMixture (P : List Nat) (g K : Nat) (t : LogTerm α) : Prop where
  moments : ∃ S, t.u.shape = S ++ t.dims ∧ BroadcastsTo S P
  parameters : BroadcastsTo t.phi.shape (insAxis g K P ++ t.dims)

omit [DecidableEq α] [CommSemiring α] in
/-- The moments with the cluster axis, for `cluster_plate = -1`. -/
theorem mixU_ok {u : Arr α} {S : List Nat} (hu : u.shape = S ++ dims) (hS : BroadcastsTo S P) :
    ∃ v, mixU 0 dims.length u = .ok v ∧ BroadcastsTo v.shape (insAxis 0 K P ++ dims) ∧
      dims.length ≤ v.shape.length ∧ (∀ k < dims.length, axisLen v.shape k = axisLen dims k) ∧
      ∀ d p k, v.at (joinC dims.length d (insC 0 k p)) = u.at (joinC dims.length d p) := by
  have hl : u.shape.length = S.length + dims.length := by rw [hu, List.length_append]
  unfold mixU
  rw [natAbs_gated]
  by_cases h : u.shape.length ≥ 0 + 1 + dims.length
  · rw [if_pos h]
    obtain ⟨v, hv, hvb, hvat⟩ := C50_moments_self (g := 0) (K := K) (by omega) hu hS
    obtain ⟨v', hv', hvl, hvax, _⟩ := npExpandDims_ok (X := u) (g := 0 + dims.length) (by omega)
    obtain rfl : v = v' := by
      unfold mixUSelf at hv
      rw [hv] at hv'
      exact Except.ok.inj hv'
    refine ⟨v, hv, hvb, by omega, fun k hk => ?_, hvat⟩
    rw [hvax, if_pos (by omega), hu, axisLen_append, if_pos hk]
  · rw [if_neg h]
    have hS0 : S = [] := List.length_eq_zero_iff.1 (by omega)
    subst hS0
    refine ⟨u, rfl, ⟨?_, fun k => ?_⟩, by omega, fun k hk => ?_, fun d p k => ?_⟩
    · rw [hu]; simp
    · rw [hu, List.nil_append, axisLen_append]
      by_cases h1 : k < dims.length
      · right; rw [if_pos h1]
      · left; exact axisLen_of_ge (by omega)
    · rw [hu, List.nil_append]
    · apply u.at_congr
      intro j hj
      by_cases h1 : j < dims.length
      · rw [joinC_lt _ _ h1, joinC_lt _ _ h1]
      · refine absurd (axisLen_of_ge ?_) hj
        rw [hu, List.nil_append]
        omega

/-- **C50** The message to the selector for `cluster_plate = -1`: the expected log-density of each cluster,
`m_k(p) = Σ_i <phi_{i,k}(p), u_i(p)> + g_k(p)`.  Full claim: the same for every `cluster_plate`, which is refuted
below. -/
theorem C50_message_selector_partial (ts : List (LogTerm α)) (hts : ∀ t ∈ ts, t.FitsMixture P 0 K) {cgf : Arr α}
    (hc : BroadcastsTo cgf.shape (insAxis 0 K P)) :
    ∃ y, mixMessageZ 0 cgf (ts.map fun t => (t.dims.length, t.u, t.phi)) = .ok y ∧ BroadcastsTo y.shape (P ++ [K]) ∧
      ∀ k p, k < K → ValidIn P p → y.at (consC k p) = cgf.at (insC 0 k p) +
        (ts.map fun t => sumOver t.dims fun d =>
          t.phi.at (joinC t.dims.length d (insC 0 k p)) * t.u.at (joinC t.dims.length d p)).sum := by
  have hins : insAxis 0 K P = P ++ [K] := by unfold insAxis; simp
  have hinc : ∀ k p, insC 0 k p = consC k p := by intro k p; funext j; cases j <;> simp [insC, consC]
  have hU : ∀ t : LogTerm α, ∃ v, t ∈ ts → mixU 0 t.dims.length t.u = .ok v ∧
      LogTerm.Fits (insAxis 0 K P) ⟨t.dims, v, t.phi⟩ ∧
      ∀ d p k, v.at (joinC t.dims.length d (insC 0 k p)) = t.u.at (joinC t.dims.length d p) := by
    intro t
    by_cases ht : t ∈ ts
    · obtain ⟨⟨S, hu, hS⟩, hp⟩ := hts t ht
      obtain ⟨v, hv, hvb, hvl, hvf, hvat⟩ := mixU_ok (K := K) hu hS
      exact ⟨v, fun _ => ⟨hv, ⟨hvb, hvl, hvf, hp⟩, hvat⟩⟩
    · exact ⟨t.u, fun h => absurd h ht⟩
  choose U hU using hU
  set ts' : List (LogTerm α) := ts.map fun t => ⟨t.dims, U t, t.phi⟩ with hts'
  have hfits : ∀ t ∈ ts', t.Fits (insAxis 0 K P) := by
    intro t ht
    rw [hts', List.mem_map] at ht
    obtain ⟨t0, h0, rfl⟩ := ht
    exact (hU t0 h0).2.1
  -- the normalisation is not changed
  obtain ⟨c, hcc, hcb, hcat⟩ := gateX_ok (dims := []) (Nat.zero_le P.length) (by simpa using hc)
  have hcl : 1 ≤ c.shape.length := by
    have h := hcc
    unfold gateX at h
    split at h
    · obtain rfl := (Except.ok.inj h).symm
      show 1 ≤ (cgf.shape ++ List.replicate 1 1).length
      simp
    · rename_i hh
      obtain ⟨c', hc', hl', _⟩ := moveaxis_right cgf (f := 0) (t := 0) (by omega) (by omega)
      have e : moveaxis cgf (-((0 : Nat) + 1 : Int) - (0 : Nat)) (-1) = .ok c' := hc'
      rw [show ([] : List Nat).length = 0 by rfl] at h
      rw [e] at h
      obtain rfl := Except.ok.inj h
      omega
  have hj : ∀ (d p : Nat → Nat), joinC ([] : List Nat).length d p = p := by
    intro d p; funext k; simp [joinC]
  obtain ⟨L, hL, hLb, hLl, hLat⟩ := C50_logpdf ts' hfits (cgf := c) (f := ⟨[], fun _ => 0⟩)
    (by rw [hins]; simpa using hcb) ⟨by simp, fun k => .inl (by simp [axisLen])⟩
  obtain ⟨y, hy, hyl, hyax, hyat⟩ := moveaxis_right L (f := 0) (t := 0) (by omega) (by omega)
  have hm0 : ∀ j, movedAt 0 0 j = j := by intro j; unfold movedAt; (repeat' split) <;> omega
  refine ⟨y, ?_, ?_, fun k p hk hp => ?_⟩
  · unfold mixMessageZ
    rw [show gateX 0 0 cgf = .ok c from hcc]
    simp only [bind, Except.bind]
    rw [List.mapM_map, mapM_ok (g := fun t : LogTerm α => (t.dims.length, U t, t.phi)) ts (fun t ht => by
      simp only [Function.comp]
      rw [(hU t ht).1]
      rfl)]
    simp only
    have e : ts.map (fun t => (t.dims.length, U t, t.phi)) = ts'.map fun t => (t.dims.length, t.u, t.phi) := by
      rw [hts', List.map_map]
      rfl
    rw [e, hL]
    exact hy
  · rw [← hins]
    refine ⟨by rw [hyl]; exact hLb.1, fun j => ?_⟩
    rw [hyax, hm0]
    exact hLb.2 j
  · rw [hyat]
    simp only [hm0]
    have hv : ValidIn (insAxis 0 K P) (consC k p) := by rw [hins]; exact validIn_consC hk hp
    rw [show (fun k_1 => consC k p k_1) = consC k p from rfl, hLat _ hv]
    have h0 := hcat k (fun _ => 0) p
    rw [hj, hj] at h0
    rw [h0]
    congr 1
    · show cgf.at _ + 0 = _
      rw [add_zero]
    · rw [hts', List.map_map]
      congr 1
      refine List.map_congr_left fun t ht => ?_
      simp only [Function.comp]
      refine sumOver_congr _ fun i _ => ?_
      rw [← hinc, (hU t ht).2.2]

/-- **C50** Conjugacy with the selector: the expected log-density of the node, computed from its own natural parameters and
normalisation, is the inner product of the message and the probabilities (`cluster_plate = -1`). -/
theorem C50_selector_adjoint_partial {z cgf : Arr α} (hz : z.shape = Sz ++ [K]) (hSz : BroadcastsTo Sz P)
    (ts : List (LogTerm α)) (hts : ∀ t ∈ ts, t.FitsMixture P 0 K) (hc : BroadcastsTo cgf.shape (insAxis 0 K P)) :
    ∃ (mZ G : Arr α) (Phi : LogTerm α → Arr α),
      mixMessageZ 0 cgf (ts.map fun t => (t.dims.length, t.u, t.phi)) = .ok mZ ∧ mixCgf 0 z cgf = .ok G ∧
      (∀ t ∈ ts, mixPhi 0 t.dims.length z t.phi = .ok (Phi t)) ∧
      ∀ p, ValidIn P p → G.at p + (ts.map fun t => sumOver t.dims fun d =>
          (Phi t).at (joinC t.dims.length d p) * t.u.at (joinC t.dims.length d p)).sum
        = ∑ k ∈ Finset.range K, mZ.at (consC k p) * z.at (consC k p) := by
  obtain ⟨mZ, hmZ, _, hmZat⟩ := C50_message_selector_partial ts hts hc
  obtain ⟨G, hG, _, hGat⟩ := C50_cgf (Nat.zero_le _) hz hSz hc
  have hPhi : ∀ t : LogTerm α, ∃ v, t ∈ ts → mixPhi 0 t.dims.length z t.phi = .ok v ∧
      ∀ d p, ValidIn t.dims d → ValidIn P p → v.at (joinC t.dims.length d p) =
        ∑ k ∈ Finset.range K, z.at (consC k p) * t.phi.at (joinC t.dims.length d (insC 0 k p)) := by
    intro t
    by_cases ht : t ∈ ts
    · obtain ⟨v, hv, _, hvat⟩ := C50_phi (Nat.zero_le _) hz hSz (hts t ht).parameters
      exact ⟨v, fun _ => ⟨hv, hvat⟩⟩
    · exact ⟨t.u, fun h => absurd h ht⟩
  choose Phi hPhi using hPhi
  refine ⟨mZ, G, Phi, hmZ, hG, fun t ht => (hPhi t ht).1, fun p hp => ?_⟩
  have h1 : ∀ k ∈ Finset.range K, mZ.at (consC k p) * z.at (consC k p) = z.at (consC k p) * cgf.at (insC 0 k p) +
      (ts.map fun t => sumOver t.dims fun d => z.at (consC k p) *
        (t.phi.at (joinC t.dims.length d (insC 0 k p)) * t.u.at (joinC t.dims.length d p))).sum := by
    intro k hk
    rw [hmZat k p (Finset.mem_range.1 hk) hp, add_mul, mul_comm]
    congr 1
    rw [mul_comm, ← List.sum_map_mul_left]
    congr 1
    refine List.map_congr_left fun t _ => ?_
    rw [sumOver_mul_left]
  rw [Finset.sum_congr rfl h1, Finset.sum_add_distrib, hGat p hp]
  congr 1
  clear h1 hmZ hmZat hts
  have key : ∀ l : List (LogTerm α), (∀ t ∈ l, t ∈ ts) →
      (l.map fun t => sumOver t.dims fun d =>
          (Phi t).at (joinC t.dims.length d p) * t.u.at (joinC t.dims.length d p)).sum =
      ∑ k ∈ Finset.range K, (l.map fun t => sumOver t.dims fun d => z.at (consC k p) *
        (t.phi.at (joinC t.dims.length d (insC 0 k p)) * t.u.at (joinC t.dims.length d p))).sum := by
    intro l
    induction l with
    | nil => intro _; simp
    | cons t l ih =>
      intro hl
      simp only [List.map_cons, List.sum_cons, Finset.sum_add_distrib]
      rw [ih fun t ht => hl t (List.mem_cons_of_mem _ ht)]
      congr 1
      rw [← sumOver_sum]
      refine sumOver_congr_valid fun d hd => ?_
      rw [(hPhi t (hl t (by simp))).2 d p hd hp, Finset.sum_mul]
      exact Finset.sum_congr rfl fun k _ => by ring
  exact key ts fun t ht => ht

end

/-! ### A cluster plate that is not the last one -/

private def cgfA : Arr Int := ⟨[2, 2], fun c => 10 * (c 1 : Int) + c 0⟩
private def cgfB : Arr Int := ⟨[2, 3], fun c => 10 * (c 1 : Int) + c 0⟩

/-- For `cluster_plate = -2` the normalisation is added with its axes exchanged: with two clusters and two plates the
message has the normalisation of cluster 1, plate 0 (10) where that of cluster 0, plate 1 (1) is due. -/
theorem C50_cluster_plate_refuted :
    (mixMessageZ 1 cgfA []).toOption.map (fun y => (y.shape, y.at (consC 0 (coord [1])))) = some ([2, 2], 10) ∧
    cgfA.at (insC 1 0 (coord [1])) = 1 := by
  decide +kernel

/-- With two clusters and three plates the code raises. -/
theorem C50_cluster_plate_raises :
    (mixMessageZ 1 cgfB [(0, ⟨[3], fun _ => 1⟩, ⟨[2, 3], fun _ => 1⟩)]).toOption.isNone = true ∧
    LogTerm.FitsMixture [3] 1 2 ⟨[], (⟨[3], fun _ => 1⟩ : Arr Int), ⟨[2, 3], fun _ => 1⟩⟩ := by
  refine ⟨by decide +kernel, ⟨[3], rfl, BroadcastsTo.refl _⟩, BroadcastsTo.refl _⟩

/-! ### Examples -/

private def zM : Arr Int := ⟨[2, 3], fun c => ((c 0 : Int) + 1) * (c 1 + 1)⟩
private def phiM : Arr Int := ⟨[3, 2], fun c => 10 * (c 1 : Int) + c 0⟩
private def uM : Arr Int := ⟨[2, 2], fun c => 5 * (c 1 : Int) + c 0 + 1⟩

/-- two plates, three clusters with vectors of length two -/
example : BroadcastsTo phiM.shape (insAxis 0 3 [2] ++ [2]) ∧ LogTerm.FitsMixture [2] 0 3 ⟨[2], uM, phiM⟩ := by
  have h : BroadcastsTo phiM.shape (insAxis 0 3 [2] ++ [2]) :=
    ⟨by decide, fun k => by
      match k with
      | 0 => exact .inr rfl
      | 1 => exact .inr rfl
      | k + 2 => exact .inl (by simp [phiM, axisLen])⟩
  exact ⟨h, ⟨[2], rfl, BroadcastsTo.refl _⟩, h⟩

example : (mixMessageZ 0 (⟨[3], fun c => (c 0 : Int)⟩) [(1, uM, phiM)]).toOption.map
    (fun y => (y.shape, y.at (coord [1, 2]))) = some ([2, 3], 2 + 20 * 6 + 21 * 7) := by decide +kernel

example : (mixPhi 0 1 zM phiM).toOption.map (fun y => (y.shape, y.at (coord [1, 1]))) =
    some ([2, 2], 2 * (1 * 1 + 2 * 11 + 3 * 21)) := by decide +kernel

example : (mixMessageParam 1 0 0 zM (⟨[3, 2], fun c => 10 * (c 1 : Int) + c 0⟩)).toOption.map
    (fun y => (y.shape, y.at (coord [2, 1]))) = some ([3, 2], 6 * 21) := by decide +kernel

end Verif
