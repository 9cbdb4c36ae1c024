import Verif.Model.Weights
import Verif.Props.PlateMaps
import Verif.Props.Message
import Verif.Props.Mixture

/-!
# C70: the mask which a node gives to a parent marks the elements on which the unmasked part of the node depends
-/

namespace Verif
open Spec

/-! ## Helpers -/

/-- the array `w` on the plates `q` carries the mask `M` of the plates `P` -/
structure Carries (q P : List Nat) (w M : Arr Bool) (uses : (c e : Nat → Nat) → Prop) : Prop where
  fits : BroadcastsTo w.shape q
  active : ∀ e, ValidIn q e → (w.at e = true ↔ ∃ c, ValidIn P c ∧ M.at c = true ∧ uses c e)
  valid : ∀ c e, ValidIn P c → uses c e → ValidIn q e

theorem Carries.trans {q R P : List Nat} {w v M : Arr Bool} {u1 u2 : (c e : Nat → Nat) → Prop}
    (h1 : Carries q R w v u1) (h2 : Carries R P v M u2) : Carries q P w M fun c e => ∃ f, u2 c f ∧ u1 f e where
  fits := h1.fits
  active e he := by
    rw [h1.active e he]
    constructor
    · rintro ⟨f, hf, hv, hu⟩
      obtain ⟨c, hc, hM, hu2⟩ := (h2.active f hf).1 hv
      exact ⟨c, hc, hM, f, hu2, hu⟩
    · rintro ⟨c, hc, hM, f, hu2, hu⟩
      have hf := h2.valid c f hc hu2
      exact ⟨f, hf, (h2.active f hf).2 ⟨c, hc, hM, hu2⟩, hu⟩
  valid c e hc := by
    rintro ⟨f, hu2, hu⟩
    exact h1.valid f e (h2.valid c f hc hu2) hu

theorem carries_same {P : List Nat} {M : Arr Bool} (hM : BroadcastsTo M.shape P) :
    Carries P P M M fun c e => e = c where
  fits := hM
  active e he := ⟨fun h => ⟨e, he, h, rfl⟩, by rintro ⟨c, _, h, rfl⟩; exact h⟩
  valid c e hc h := by rw [h]; exact hc

theorem carries_axes {P : List Nat} {M : Arr Bool} (t : List Nat) (hM : BroadcastsTo M.shape P) :
    Carries (P ++ t) P (addTrailingAxes M t.length) M (UsesAxes t) where
  fits := by
    refine ⟨by have := hM.1; simp [addTrailingAxes]; omega, fun k => ?_⟩
    rw [axisLen_addTrailingAxes, axisLen_append]
    by_cases h : k < t.length
    · rw [if_pos h]; exact .inl rfl
    · rw [if_neg h, if_neg h]; exact hM.2 _
  active e he := by
    rw [addTrailingAxes_at]
    constructor
    · intro h
      refine ⟨fun k => e (k + t.length), fun k => ?_, h, fun k => if k < t.length then e k else 0, fun k => ?_, ?_⟩
      · have := he (k + t.length)
        rwa [axisLen_append, if_neg (by omega), Nat.add_sub_cancel] at this
      · have := he k
        rw [axisLen_append] at this
        by_cases h : k < t.length
        · rw [if_pos h] at this; simpa [h] using this
        · simp only [if_neg h]; rw [axisLen_of_ge (by omega)]; exact Nat.one_pos
      · funext k
        unfold joinC
        by_cases h : k < t.length
        · simp [h]
        · simp only [if_neg h]; congr 1; omega
    · rintro ⟨c, _, hM, d, _, rfl⟩
      rw [← hM]
      congr 1
      funext k
      rw [joinC_ge _ _ (by omega), Nat.add_sub_cancel]
  valid c e hc := by
    rintro ⟨d, hd, rfl⟩
    exact validIn_joinC hd hc

theorem carries_cluster {P : List Nat} {M y : Arr Bool} {g K : Nat} (hg : g ≤ P.length)
    (hy : BroadcastsTo y.shape (insAxis g K P)) (hat : ∀ k p, y.at (insC g k p) = M.at p) :
    Carries (insAxis g K P) P y M fun c e => ∃ k < K, e = insC g k c where
  fits := hy
  active e he := by
    have hv : ∀ j, e j < if j < g then axisLen P j else if j = g then K else axisLen P (j - 1) := by
      intro j; rw [← axisLen_insAxis hg]; exact he j
    have e1 : e = insC g (e g) fun j => if j < g then e j else e (j + 1) := by
      funext j
      unfold insC
      by_cases h1 : j < g
      · simp [h1]
      · rw [if_neg h1]
        by_cases h2 : j = g
        · rw [if_pos h2, h2]
        · rw [if_neg h2]; simp only [if_neg (show ¬ j - 1 < g by omega)]; congr 1; omega
    constructor
    · intro h
      refine ⟨fun j => if j < g then e j else e (j + 1), fun j => ?_, ?_, e g, ?_, e1⟩
      · by_cases h1 : j < g
        · have := hv j; simp only [if_pos h1] at this ⊢; exact this
        · have := hv (j + 1)
          simp only [if_neg h1, if_neg (show ¬ j + 1 < g by omega), if_neg (show ¬ j + 1 = g by omega)] at this ⊢
          exact this
      · rw [← hat (e g), ← e1]; exact h
      · simpa using hv g
    · rintro ⟨c, _, hM, k, _, rfl⟩
      rw [hat]; exact hM
  valid c e hc := by
    rintro ⟨k, hk, rfl⟩ j
    rw [axisLen_insAxis hg]
    unfold insC
    split
    · exact hc j
    · split
      · exact hk
      · exact hc _

theorem dist_carries (D : Dist) {P q : List Nat} {i : Nat} {M : Arr Bool} (hc : D.ClustersFit P)
    (hq : D.map.toParent i P = .ok q) (hM : BroadcastsTo M.shape P) :
    ∃ w, D.weights i M = .ok w ∧ Carries q P w M (D.Uses i) := by
  induction D generalizing P q i M with
  | plain => cases hq; exact ⟨M, rfl, carries_same hM⟩
  | ard shape =>
    simp only [Dist.map, ardMap] at hq
    split at hq
    · cases hq
    · rename_i h
      cases hq
      refine ⟨_, by simp only [Dist.weights, ardWeights]; rw [if_neg h], ?_⟩
      exact carries_axes shape hM
  | gmc N D =>
    match i, hq with
    | 0, hq => cases hq; exact ⟨M, rfl, carries_same hM⟩
    | 1, hq => cases hq; exact ⟨_, rfl, carries_axes [N - 1, D] hM⟩
    | 2, hq => cases hq; exact ⟨_, rfl, carries_axes [N - 1] hM⟩
  | varying N D =>
    match i, hq with
    | 0, hq => cases hq; exact ⟨M, rfl, carries_same hM⟩
    | 1, hq => cases hq; exact ⟨M, rfl, carries_same hM⟩
    | 2, hq => cases hq; exact ⟨_, rfl, carries_axes [D] hM⟩
    | 3, hq => cases hq; exact ⟨_, rfl, carries_axes [N - 1] hM⟩
    | 4, hq => cases hq; exact ⟨_, rfl, carries_axes [N - 1, D] hM⟩
  | switching N D K =>
    match i, hq with
    | 0, hq => cases hq; exact ⟨M, rfl, carries_same hM⟩
    | 1, hq => cases hq; exact ⟨M, rfl, carries_same hM⟩
    | 2, hq => cases hq; exact ⟨_, rfl, carries_axes [K, D] hM⟩
    | 3, hq => cases hq; exact ⟨_, rfl, carries_axes [N - 1] hM⟩
    | 4, hq => cases hq; exact ⟨_, rfl, carries_axes [N - 1, D] hM⟩
  | cmc N K =>
    match i, hq with
    | 0, hq => cases hq; exact ⟨M, rfl, carries_same hM⟩
    | 1, hq => cases hq; exact ⟨_, rfl, carries_axes [N - 1, K] hM⟩
  | diagWishart D => cases hq; exact ⟨_, rfl, carries_axes [D] hM⟩
  | mixture raw g K ih =>
    match i, hq with
    | 0, hq => cases hq; exact ⟨M, rfl, carries_same hM⟩
    | i + 1, hq =>
      obtain ⟨hg, hr⟩ := hc
      have hq' : raw.map.toParent i (insAxis g K P) = .ok q := by rw [← (C15_plates hg).1]; exact hq
      obtain ⟨y, hy, hyb, hyat⟩ := C15_mask (K := K) hg M hM
      obtain ⟨w, hw, hcar⟩ := ih hr hq' hyb
      refine ⟨w, ?_, ?_⟩
      · show (gateWeightsX g M >>= fun v => raw.weights i v) = _
        rw [hy]; exact hw
      · have h := hcar.trans (carries_cluster hg hyb hyat)
        refine ⟨h.fits, fun e he => ?_, fun c e hc hu => ?_⟩
        · rw [h.active e he]
          constructor
          · rintro ⟨c, hc, hm, f, ⟨k, hk, rfl⟩, hu⟩; exact ⟨c, hc, hm, k, hk, hu⟩
          · rintro ⟨c, hc, hm, k, hk, hu⟩; exact ⟨c, hc, hm, _, ⟨k, hk, rfl⟩, hu⟩
        · obtain ⟨k, hk, hu⟩ := hu
          exact h.valid c e hc ⟨_, ⟨k, hk, rfl⟩, hu⟩

theorem parentMask_of_carries {q P parent : List Nat} {w M : Arr Bool} {uses : (c e : Nat → Nat) → Prop}
    (h : Carries q P w M uses) (hpos : ∀ k, 0 < axisLen q k) (hp : BroadcastsTo parent q) :
    ∃ y, maskToParent q parent w = .ok y ∧ IsParentMask P parent uses M y := by
  obtain ⟨y, hy, hb, hat⟩ := C10_active_iff_partial q parent w hpos hp h.fits
  refine ⟨y, hy, hb, fun r hr => ?_⟩
  rw [hat r hr]
  constructor
  · rintro ⟨e, he, hre, hw⟩
    obtain ⟨c, hc, hm, hu⟩ := (h.active e he).1 hw
    exact ⟨c, e, hc, hm, hu, hre⟩
  · rintro ⟨c, e, hc, hm, hu, hre⟩
    have he := h.valid c e hc hu
    exact ⟨e, he, hre, (h.active e he).2 ⟨c, hc, hm, hu⟩⟩

/-- a sum of counts over the last axes is not zero iff one of the counts is not -/
theorem npSumLast_nonzero {X : Arr Nat} {Q dims : List Nat} (hX : BroadcastsTo X.shape (Q ++ dims))
    (hl : dims.length ≤ X.shape.length) (hpos : ∀ k, 0 < axisLen dims k) :
    ∃ y, npSumLast X dims.length = .ok y ∧ BroadcastsTo y.shape Q ∧
      ∀ p, ValidIn Q p → (y.at p ≠ 0 ↔ ∃ d, ValidIn dims d ∧ X.at (joinC dims.length d p) ≠ 0) := by
  have hlen : (X.shape.drop (X.shape.length - dims.length)).length = dims.length := by simp; omega
  have hax : ∀ k < dims.length, axisLen X.shape k = axisLen (X.shape.drop (X.shape.length - dims.length)) k := by
    intro k hk
    conv_lhs => rw [← List.take_append_drop (X.shape.length - dims.length) X.shape]
    rw [axisLen_append, hlen, if_pos hk]
  set t := X.shape.drop (X.shape.length - dims.length) with ht
  have hX' : BroadcastsTo X.shape (Q ++ t) := by
    refine ⟨by have := hX.1; simp only [List.length_append] at this ⊢; omega, fun k => ?_⟩
    rw [axisLen_append, hlen]
    by_cases h : k < dims.length
    · rw [if_pos h]; exact .inr (hax k h)
    · have := hX.2 k
      rw [axisLen_append, if_neg h] at this
      rwa [if_neg h]
  obtain ⟨y, hy, hb, hat⟩ := npSumLast_ok hX' (by omega) (fun k hk => hax k (by omega))
  rw [hlen] at hy hat
  refine ⟨y, hy, hb, fun p hp => ?_⟩
  rw [hat p hp]
  have hle : ∀ k, axisLen t k = 1 ∨ axisLen t k = axisLen dims k := by
    intro k
    by_cases h : k < dims.length
    · have := hX.2 k
      rwa [axisLen_append, if_pos h, hax k h] at this
    · exact .inl (axisLen_of_ge (by omega))
  constructor
  · intro h
    by_contra hno
    push Not at hno
    apply h
    unfold sumOver
    apply List.sum_eq_zero
    intro x hx
    obtain ⟨i, hi, rfl⟩ := List.mem_map.1 hx
    have hd := coord_valid hi
    apply hno
    intro k
    have h1 := hd k
    have h2 := hpos k
    rcases hle k with h3 | h3 <;> omega
  · rintro ⟨d, hd, hne⟩ h0
    obtain ⟨i, hi, hid⟩ := exists_index_of_valid (s := t) (c := restrict t d) (by
      intro k
      unfold restrict
      have h1 := hd k
      split
      · omega
      · rcases hle k with h3 | h3 <;> omega)
    have h1 := List.sum_eq_zero_iff_forall_eq_nat.1 h0 _ (List.mem_map.2 ⟨i, hi, rfl⟩)
    apply hne
    rw [← h1, hid]
    apply X.at_congr
    intro k hk
    unfold joinC restrict
    by_cases h : k < dims.length
    · rw [hax k h] at hk
      simp [h, hk]
    · simp [h]

theorem maskNat_at (w : Arr Bool) (c : Nat → Nat) : (maskNat w).at c = if w.at c then 1 else 0 := rfl

theorem nonzero_at (w : Arr Nat) (c : Nat → Nat) : (nonzero w).at c = true ↔ w.at c ≠ 0 := by
  show (w.at c != 0) = true ↔ _
  simp

theorem active_part {Q t : List Nat} {M : Arr Bool} {f : (Nat → Nat) → Nat} {e : Nat → Nat} (he : ValidIn Q e)
    (hf : ∀ c, f c ≠ 0 ↔ M.at c = true) :
    (∃ d, ValidIn t d ∧ f (joinC t.length d e) ≠ 0) ↔
      ∃ c, ValidIn (Q ++ t) c ∧ M.at c = true ∧ UsesPart t.length c e := by
  constructor
  · rintro ⟨d, hd, h⟩
    refine ⟨_, validIn_joinC hd he, (hf _).1 h, ?_⟩
    funext k; rw [joinC_ge _ _ (by omega), Nat.add_sub_cancel]
  · rintro ⟨c, hc, h, hu⟩
    obtain ⟨c', _, hm, d, hd, hcd⟩ := ((carries_axes t ⟨le_refl Q.length, fun _ => .inr rfl⟩).active
      (M := ⟨Q, fun _ => true⟩) c hc).1 rfl
    refine ⟨d, hd, (hf _).2 ?_⟩
    have : e = c' := by
      rw [hu, hcd]; funext k; show joinC _ _ _ (k + _) = _; rw [joinC_ge _ _ (by omega), Nat.add_sub_cancel]
    rw [this, ← hcd]; exact h

theorem valid_part {Q t : List Nat} (c e : Nat → Nat) (hc : ValidIn (Q ++ t) c) (hu : UsesPart t.length c e) :
    ValidIn Q e := by
  intro k
  rw [hu]
  have := hc (k + t.length)
  rwa [axisLen_append, if_neg (by omega), Nat.add_sub_cancel] at this

/-! ## Theorems -/

/-- **C70** The mask which a node of any of the kinds gives to any of its parents (lengths of axes positive): an element of
the parent is active iff an unmasked variable of the node depends on it. -/
theorem C70_parent_mask (D : Dist) {P q parent : List Nat} {i : Nat} {M : Arr Bool} (hc : D.ClustersFit P)
    (hq : D.map.toParent i P = .ok q) (hpos : ∀ k, 0 < axisLen q k) (hp : BroadcastsTo parent q)
    (hM : BroadcastsTo M.shape P) :
    ∃ y, nodeMaskToParent D.map D.weights P parent i M = .ok y ∧ IsParentMask P parent (D.Uses i) M y := by
  obtain ⟨w, hw, h⟩ := dist_carries D hc hq hM
  obtain ⟨y, hy, h⟩ := parentMask_of_carries h hpos hp
  refine ⟨y, ?_, h⟩
  unfold nodeMaskToParent
  rw [hw, hq]
  exact hy

/-- **C70** The states of a chain as separate variables (the last plate is time): an element of the chain is active iff
one of its states is. -/
theorem C70_unchain {X parent : List Nat} {N : Nat} {M : Arr Bool} (hN : 0 < N) (hpos : ∀ k, 0 < axisLen X k)
    (hp : BroadcastsTo parent X) (hM : BroadcastsTo M.shape (X ++ [N])) :
    ∃ y, nodeMaskToParent (unchainMap N) unchainWeights (X ++ [N]) parent 0 M = .ok y ∧
      IsParentMask (X ++ [N]) parent (UsesPart 1) M y := by
  have hq : (unchainMap N).toParent 0 (X ++ [N]) = .ok X := by simp [unchainMap, getPlates]
  have hw : ∃ w, unchainWeights 0 M = .ok w ∧ Carries X (X ++ [N]) w M (UsesPart 1) := by
    by_cases hl : M.shape.length ≥ 1
    · obtain ⟨y, hy, hb, hat⟩ := npSumLast_nonzero (X := maskNat M) (Q := X) (dims := [N]) hM hl
        (fun k => by rw [axisLen_single]; split <;> omega)
      refine ⟨nonzero y, ?_, hb, fun e he => ?_, ?_⟩
      · unfold unchainWeights
        simp only [show (maskNat M).shape.length ≥ 1 from hl, if_true]
        rw [show npSumLast (maskNat M) 1 = .ok y from hy]
        rfl
      · rw [nonzero_at, hat e he]
        exact active_part he fun c => by rw [maskNat_at]; split <;> simp_all
      · exact valid_part
    · refine ⟨nonzero (maskNat M), ?_, ⟨by show M.shape.length ≤ _; omega, fun k => .inl ?_⟩, fun e he => ?_, ?_⟩
      · unfold unchainWeights
        simp only [show ¬ (maskNat M).shape.length ≥ 1 from hl, if_false]
        rfl
      · exact axisLen_of_ge (show M.shape.length ≤ k by omega)
      · have hconst : ∀ c c', M.at c = M.at c' := fun c c' =>
          M.at_congr fun k hk => absurd (axisLen_of_ge (by omega)) hk
        rw [nonzero_at, maskNat_at]
        constructor
        · intro h
          refine ⟨joinC 1 (fun _ => 0) e, validIn_joinC (t := [N]) (fun k => ?_) he, ?_, ?_⟩
          · rw [axisLen_single]; split <;> omega
          · rw [hconst _ e]; by_contra h'; simp [h'] at h
          · funext k; rw [joinC_ge _ _ (by omega), Nat.add_sub_cancel]
        · rintro ⟨c, _, h, _⟩
          rw [hconst e c, h]; simp
      · exact valid_part
  obtain ⟨w, hw, h⟩ := hw
  obtain ⟨y, hy, h⟩ := parentMask_of_carries h hpos hp
  refine ⟨y, ?_, h⟩
  unfold nodeMaskToParent
  rw [hw, hq]
  exact hy

/-- **C70** A Gaussian variable whose first axes are made plates: an element of the parent is active iff one of its parts
is. -/
theorem C70_to_gaussian {Q head parent : List Nat} {M : Arr Bool} (hh : ∀ k, 0 < axisLen head k)
    (hpos : ∀ k, 0 < axisLen Q k) (hp : BroadcastsTo parent Q) (hM : BroadcastsTo M.shape (Q ++ head)) :
    ∃ y, nodeMaskToParent (toGaussianMap head) (toGaussianWeights head) (Q ++ head) parent 0 M = .ok y ∧
      IsParentMask (Q ++ head) parent (UsesPart head.length) M y := by
  have hq : (toGaussianMap head).toParent 0 (Q ++ head) = .ok Q := by
    by_cases h : head.length = 0
    · have : head = [] := List.length_eq_zero_iff.1 h
      subst this; simp [toGaussianMap]
    · simp [toGaussianMap, getPlates]
  have hw : ∃ w, toGaussianWeights head 0 M = .ok w ∧ Carries Q (Q ++ head) w M (UsesPart head.length) := by
    by_cases h : head.length = 0
    · have : head = [] := List.length_eq_zero_iff.1 h
      subst this
      rw [List.append_nil] at hM ⊢
      refine ⟨M, by simp [toGaussianWeights], ?_⟩
      have := carries_same hM
      exact ⟨this.fits, fun e he => by rw [this.active e he]; rfl, this.valid⟩
    · have h1 : BroadcastsTo (⟨head, fun _ => 1⟩ : Arr Nat).shape (Q ++ head) := by
        refine ⟨by simp, fun k => ?_⟩
        rw [axisLen_append]
        by_cases h : k < head.length
        · rw [if_pos h]; exact .inr rfl
        · exact .inl (axisLen_of_ge (by simpa using h))
      obtain ⟨n, hn, hs, hnb, hnat⟩ := npMul_common (X := maskNat M) hM h1
      obtain ⟨y, hy, hb, hat⟩ := npSumLast_nonzero hnb (hs.rank_ge head (by simp)) hh
      refine ⟨nonzero y, ?_, hb, fun e he => ?_, valid_part⟩
      · unfold toGaussianWeights
        rw [if_neg (by simp), if_neg h, hn]
        show (npSumLast n head.length >>= fun v => Except.ok (nonzero v)) = _
        rw [hy]; rfl
      · rw [nonzero_at, hat e he]
        exact active_part he fun c => by
          rw [hnat, maskNat_at]
          show _ * 1 ≠ 0 ↔ _
          split <;> simp_all
  obtain ⟨w, hw, h⟩ := hw
  obtain ⟨y, hy, h⟩ := parentMask_of_carries h hpos hp
  refine ⟨y, ?_, h⟩
  unfold nodeMaskToParent
  rw [hw, hq]
  exact hy

/-! ## Examples -/

/-- a mixture of two vectors, three observations of which the second is masked -/
def exMask : Arr Bool := ⟨[3], fun c => c 0 != 1⟩

example : ∃ y, nodeMaskToParent (Dist.mixture (.ard [2]) 0 2).map (Dist.mixture (.ard [2]) 0 2).weights [3] [2, 2] 1 exMask
    = .ok y ∧ IsParentMask [3] [2, 2] ((Dist.mixture (.ard [2]) 0 2).Uses 1) exMask y :=
  C70_parent_mask (.mixture (.ard [2]) 0 2) (q := [3, 2, 2]) (P := [3]) (i := 1) ⟨by simp, trivial⟩ rfl
    (fun k => by match k with | 0 => decide | 1 => decide | 2 => decide | k + 3 => simp [axisLen])
    ⟨by simp, fun k => by match k with | 0 => decide | 1 => decide | 2 => decide | k + 3 => simp [axisLen]⟩
    ⟨by simp [exMask], fun k => by match k with | 0 => simp [exMask] | k + 1 => simp [axisLen, exMask]⟩

example : ∃ y, nodeMaskToParent (unchainMap 3) unchainWeights [2, 3] [2] 0 ⟨[2, 3], fun c => c 1 == 0 && c 0 == 2⟩ = .ok y ∧
    IsParentMask [2, 3] [2] (UsesPart 1) ⟨[2, 3], fun c => c 1 == 0 && c 0 == 2⟩ y :=
  C70_unchain (X := [2]) (N := 3) (by simp) (fun k => by match k with | 0 => decide | k + 1 => simp [axisLen])
    ⟨le_refl _, fun _ => .inr rfl⟩ ⟨le_refl _, fun _ => .inr rfl⟩

example : ∃ y, nodeMaskToParent (toGaussianMap [3]) (toGaussianWeights [3]) [2, 3] [2] 0 ⟨[2, 1], fun c => c 1 == 0⟩ = .ok y ∧
    IsParentMask [2, 3] [2] (UsesPart 1) ⟨[2, 1], fun c => c 1 == 0⟩ y :=
  C70_to_gaussian (Q := [2]) (head := [3]) (fun k => by match k with | 0 => decide | k + 1 => simp [axisLen])
    (fun k => by match k with | 0 => decide | k + 1 => simp [axisLen]) ⟨le_refl _, fun _ => .inr rfl⟩
    ⟨le_refl _, fun k => by match k with | 0 => decide | 1 => decide | k + 2 => simp [axisLen]⟩

end Verif
