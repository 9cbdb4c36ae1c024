import Mathlib.Tactic.Ring
import Verif.Props.Observe
import Verif.Lemmas.RightAxes
import Verif.Props.ConcatGaussian

/-!
# C24: the Riemannian gradient is the difference between the parameters that `update` sets and the current ones
-/

namespace Verif
open Spec

theorem mapM_index {β γ : Type} {f : β → Except PyErr γ} (l : List β) {Q : Nat → γ → Prop}
    (h : ∀ (i : Nat) a, l[i]? = some a → ∃ b, f a = .ok b ∧ Q i b) :
    ∃ r, l.mapM f = .ok r ∧ r.length = l.length ∧ ∀ (i : Nat) b, r[i]? = some b → Q i b := by
  induction l generalizing Q with
  | nil => exact ⟨[], rfl, rfl, fun i b h => by simp at h⟩
  | cons a l ih =>
    obtain ⟨b, hb, hQ⟩ := h 0 a rfl
    obtain ⟨r, hr, hl, hi⟩ := ih (Q := fun i => Q (i + 1)) (fun i a' ha' => h (i + 1) a' ha')
    refine ⟨b :: r, ?_, by simp [hl], fun i b' hb' => ?_⟩
    · rw [List.mapM_cons, hb, hr]
      rfl
    · cases i with
      | zero => cases hb'; exact hQ
      | succ i => exact hi i b' hb'

section
variable {α : Type} {N : ENode α}

/-- One array per `dims`, each broadcasting to the shape of the node. -/
def FitsNode (N : ENode α) (X : List (Arr α)) : Prop :=
  X.length = N.dims.length ∧
    ∀ (i : Nat) x d, X[i]? = some x → N.dims[i]? = some d → BroadcastsTo x.shape (N.plates ++ d)

/-- The same numbers at all coordinates of the node (the shapes may differ by unit axes). -/
def SameReads (N : ENode α) (X Y : List (Arr α)) : Prop :=
  ∀ (i : Nat) x y d, X[i]? = some x → Y[i]? = some y → N.dims[i]? = some d →
    ∀ c, ValidIn (N.plates ++ d) c → x.at c = y.at c

/-- As `FitsNode`, with the variable axes in full. -/
def FullNode (N : ENode α) (X : List (Arr α)) : Prop :=
  X.length = N.dims.length ∧
    ∀ (i : Nat) x d, X[i]? = some x → N.dims[i]? = some d → PlatesDims x.shape N.plates d

theorem FullNode.fits {X : List (Arr α)} (h : FullNode N X) : FitsNode N X :=
  ⟨h.1, fun i x d hx hd => (h.2 i x d hx hd).broadcastsTo⟩

theorem FullNode.at {X : List (Arr α)} (h : FullNode N X) {i : Nat} {x : Arr α} (hx : X[i]? = some x) :
    ∀ d, N.dims[i]? = some d → PlatesDims x.shape N.plates d := fun d hd => h.2 i x d hx hd

theorem FitsNode.get {X : List (Arr α)} (h : FitsNode N X) {i : Nat} {d : List Nat} (hd : N.dims[i]? = some d) :
    ∃ x, X[i]? = some x ∧ BroadcastsTo x.shape (N.plates ++ d) := by
  have hi : i < X.length := by rw [h.1]; exact (List.getElem?_eq_some_iff.1 hd).1
  exact ⟨_, List.getElem?_eq_getElem hi, h.2 i _ d (List.getElem?_eq_getElem hi) hd⟩

theorem SameReads.symm {X Y : List (Arr α)} (h : SameReads N X Y) : SameReads N Y X :=
  fun i x y d hx hy hd c hc => (h i y x d hy hx hd c hc).symm

theorem phiFromParents_ok [Add α] {phiP : List (Arr α)} (hP : FitsNode N phiP) (hB : FitsNode N N.phiBias) :
    ∃ R, phiFromParents N phiP = .ok R ∧ FitsNode N R ∧ (FullNode N phiP → FullNode N R) ∧
      ∀ (i : Nat) r p b, R[i]? = some r → phiP[i]? = some p → N.phiBias[i]? = some b →
        ∀ c, r.at c = p.at c + b.at c := by
  obtain ⟨R, hR, hl, hi⟩ := mapM_index (f := fun p : Arr α × Arr α => npAdd p.1 p.2) (phiP.zip N.phiBias)
    (Q := fun i r => (∀ d, N.dims[i]? = some d → BroadcastsTo r.shape (N.plates ++ d) ∧
        (FullNode N phiP → PlatesDims r.shape N.plates d)) ∧
      ∀ p b, phiP[i]? = some p → N.phiBias[i]? = some b → ∀ c, r.at c = p.at c + b.at c) (by
    intro i a ha
    rw [List.getElem?_zip_eq_some] at ha
    have hlt : i < N.dims.length := by rw [← hP.1]; exact (List.getElem?_eq_some_iff.1 ha.1).1
    have hd := List.getElem?_eq_getElem hlt
    obtain ⟨r, hr, hib, hb, hat⟩ := npAdd_common (hP.2 i _ _ ha.1 hd) (hB.2 i _ _ ha.2 hd)
    refine ⟨r, hr, fun d hd' => ?_, fun p b hp hb' c => ?_⟩
    · rw [hd] at hd'; cases hd'
      exact ⟨hb, fun hfull => platesDims_of_isBroadcast hib hb (by simp) (hfull.2 i _ _ ha.1 hd)⟩
    · rw [ha.1] at hp; rw [ha.2] at hb'; cases hp; cases hb'; exact hat c)
  have hlen : R.length = N.dims.length := by rw [hl, List.length_zip, hP.1, hB.1, Nat.min_self]
  exact ⟨R, hR, ⟨hlen, fun i x d hx hd => ((hi i x hx).1 d hd).1⟩,
    fun hf => ⟨hlen, fun i x d hx hd => ((hi i x hx).1 d hd).2 hf⟩, fun i r p b hr hp hb c => (hi i r hr).2 p b hp hb c⟩

theorem axisLen_addLeadingAxes (X : Arr α) (n k : Nat) : axisLen (addLeadingAxes X n).shape k = axisLen X.shape k := by
  show axisLen (List.replicate n 1 ++ X.shape) k = _
  rw [axisLen_append]
  split
  · rfl
  · rw [axisLen_of_ge (s := X.shape) (by omega)]
    unfold axisLen
    rw [List.reverse_replicate, List.getElem?_replicate]
    split <;> rfl

theorem fixPhi_ok {d : List Nat} {x : Arr α} (h : BroadcastsTo x.shape (N.plates ++ d)) :
    ∃ y, fixPhi N d x = .ok y ∧ BroadcastsTo y.shape (N.plates ++ d) ∧
      (PlatesDims x.shape N.plates d → PlatesDims y.shape N.plates d) ∧ ∀ c, y.at c = x.at c := by
  classical
  have hlen : x.shape.length ≤ N.plates.length + d.length := by simpa using h.1
  by_cases hlt : x.shape.length < N.plates.length + d.length
  · have hb : BroadcastsTo (addLeadingAxes x (N.plates.length + d.length - x.shape.length)).shape (N.plates ++ d) := by
      refine ⟨?_, fun k => ?_⟩
      · show (List.replicate _ 1 ++ x.shape).length ≤ _
        simp only [List.length_append, List.length_replicate]
        omega
      · rw [axisLen_addLeadingAxes]; exact h.2 k
    refine ⟨addLeadingAxes x (N.plates.length + d.length - x.shape.length), ?_, hb, fun hp => ?_, fun c => ?_⟩
    · unfold fixPhi
      simp only [if_pos hlt, isShapeSubset_ok_decide, bind, Except.bind, hb, decide_true]
      rfl
    · refine platesDims_of hb ?_ fun k hk => ?_
      · show _ ≤ (List.replicate _ 1 ++ x.shape).length
        have := hp.full.1
        simp only [List.length_append, List.length_replicate]
        omega
      · rw [axisLen_addLeadingAxes, hp.full.2 k hk]
    · unfold Arr.at
      show x.get _ = x.get _
      congr 1
      funext k
      unfold restrict
      rw [axisLen_addLeadingAxes]
  · refine ⟨x, ?_, h, id, fun c => rfl⟩
    have h0 : x.shape.length - (N.plates.length + d.length) = 0 := by omega
    unfold fixPhi
    simp only [if_neg hlt, h0, npSqueezeLeading, List.take_zero, List.drop_zero, Nat.zero_le, true_and,
      isShapeSubset_ok_decide, bind, Except.bind]
    simp only [List.not_mem_nil, false_imp_iff, implies_true, if_true, h, decide_true]
    rfl

theorem fixPhiLoop_ok (l : List (List Nat)) (i : Nat) (s : EState α) (hfit : FitsNode N s.phi)
    (hl : ∀ j d, l[j]? = some d → N.dims[i + j]? = some d) :
    ∃ phi, fixPhiLoop N i l s = (.ok (), { s with phi := phi }) ∧ FitsNode N phi ∧
      (FullNode N s.phi → FullNode N phi) ∧
      ∀ (j : Nat) x y, s.phi[j]? = some x → phi[j]? = some y → ∀ c, y.at c = x.at c := by
  induction l generalizing i s with
  | nil => exact ⟨s.phi, rfl, hfit, id, fun j x y hx hy c => by rw [hx] at hy; cases hy; rfl⟩
  | cons d l ih =>
    have hd := hl 0 d rfl
    rw [Nat.add_zero] at hd
    obtain ⟨x, hx, hxb⟩ := hfit.get hd
    obtain ⟨y, hy, hyb, hyf, hyat⟩ := fixPhi_ok (N := N) hxb
    have hlt : i < s.phi.length := (List.getElem?_eq_some_iff.1 hx).1
    have hfit' : FitsNode N (s.phi.set i y) := by
      refine ⟨by simpa using hfit.1, fun j z d' hz hd' => ?_⟩
      by_cases hij : i = j
      · subst hij
        rw [List.getElem?_set_self hlt] at hz
        cases hz
        rw [hd] at hd'
        cases hd'
        exact hyb
      · rw [List.getElem?_set_ne hij] at hz
        exact hfit.2 j z d' hz hd'
    have hfull' : FullNode N s.phi → FullNode N (s.phi.set i y) := by
      intro hfull
      refine ⟨by simpa using hfit.1, fun j z d' hz hd' => ?_⟩
      by_cases hij : i = j
      · subst hij
        rw [List.getElem?_set_self hlt] at hz
        cases hz
        rw [hd] at hd'
        cases hd'
        exact hyf (hfull.2 i x d hx hd)
      · rw [List.getElem?_set_ne hij] at hz
        exact hfull.2 j z d' hz hd'
    obtain ⟨phi, hphi, hf, hff, hat⟩ := ih (i + 1) { s with phi := s.phi.set i y } hfit' (fun j d' hj => by
      have := hl (j + 1) d' hj
      rwa [show i + (j + 1) = i + 1 + j by omega] at this)
    refine ⟨phi, ?_, hf, fun h => hff (hfull' h), fun j z w hz hw c => ?_⟩
    · unfold fixPhiLoop
      simp only [bind, Py.get, hx, Py.lift, hy, Py.modify]
      exact hphi
    · by_cases hij : i = j
      · subst hij
        rw [hx] at hz
        cases hz
        rw [hat i y w (List.getElem?_set_self hlt) hw c, hyat]
      · exact hat j z w (by
          show (s.phi.set i y)[j]? = _
          rw [List.getElem?_set_ne hij]
          exact hz) hw c

theorem updatePhiFromParents_ok [Add α] {phiP : List (Arr α)} (hP : FitsNode N phiP) (hB : FitsNode N N.phiBias)
    (s : EState α) :
    ∃ R, updatePhiFromParents N phiP s = (.ok (), { s with phi := R }) ∧ FitsNode N R ∧
      (FullNode N phiP → FullNode N R) ∧
      ∀ (i : Nat) r p b, R[i]? = some r → phiP[i]? = some p → N.phiBias[i]? = some b →
        ∀ c, r.at c = p.at c + b.at c := by
  obtain ⟨R, hR, hfit, hfull, hat⟩ := phiFromParents_ok hP hB
  obtain ⟨phi, hphi, hf, hff, hat2⟩ := fixPhiLoop_ok (N := N) N.dims 0 { s with phi := R } hfit (fun j d hd => by
    rwa [Nat.zero_add])
  refine ⟨phi, ?_, hf, fun h => hff (hfull h), fun i r p b hr hp hb c => ?_⟩
  · unfold updatePhiFromParents
    simp only [bind, Py.lift, hR, Py.modify]
    exact hphi
  · have hi : i < R.length := by
      rw [hfit.1, ← hf.1]; exact (List.getElem?_eq_some_iff.1 hr).1
    rw [hat2 i _ r (List.getElem?_eq_getElem hi) hr c, hat i _ p b (List.getElem?_eq_getElem hi) hp hb c]

variable [CommRing α]

/-- `update()` on a node which is not fully observed first sets the parameters to
`annealing * (phi_parents + bias + m_children)`, then recomputes the moments. -/
theorem nodeUpdate_phi [DecidableEq α] {phiP m : List (Arr α)} (hP : FitsNode N phiP) (hB : FitsNode N N.phiBias)
    (hm : FitsNode N m) (s : EState α) (hobs : npAll s.observed = false) :
    ∃ L, nodeUpdate N 1 (.ok phiP) (.ok m) s = updateMomentsAndCgf N { s with phi := L } ∧ FitsNode N L ∧
      (FullNode N phiP → FullNode N L) ∧
      ∀ (i : Nat) x p b y, L[i]? = some x → phiP[i]? = some p → N.phiBias[i]? = some b → m[i]? = some y →
        ∀ c, x.at c = s.annealing * (p.at c + b.at c + y.at c) := by
  obtain ⟨R, hR, hRf, hRff, hRat⟩ := updatePhiFromParents_ok hP hB s
  obtain ⟨L, hL, hlen, hi⟩ := mapM_index
    (f := fun p : Arr α × Arr α => (do return npScaleBy s.annealing (← npAdd p.1 p.2) : Except PyErr (Arr α))) (R.zip m)
    (Q := fun i r => (∀ d, N.dims[i]? = some d → BroadcastsTo r.shape (N.plates ++ d) ∧
        (FullNode N phiP → PlatesDims r.shape N.plates d)) ∧
      ∀ x y, R[i]? = some x → m[i]? = some y → ∀ c, r.at c = s.annealing * (x.at c + y.at c)) (by
    intro i a ha
    rw [List.getElem?_zip_eq_some] at ha
    have hlt : i < N.dims.length := by rw [← hRf.1]; exact (List.getElem?_eq_some_iff.1 ha.1).1
    have hd := List.getElem?_eq_getElem hlt
    obtain ⟨r, hr, hib, hb, hat⟩ := npAdd_common (hRf.2 i _ _ ha.1 hd) (hm.2 i _ _ ha.2 hd)
    refine ⟨npScaleBy s.annealing r, by rw [hr]; rfl, fun d hd' => ?_, fun p b hp hb' c => ?_⟩
    · rw [hd] at hd'; cases hd'
      exact ⟨hb, fun hf => platesDims_of_isBroadcast hib hb (by simp) ((hRff hf).2 i _ _ ha.1 hd)⟩
    · rw [ha.1] at hp; rw [ha.2] at hb'; cases hp; cases hb'
      show s.annealing * r.at c = _
      rw [hat c])
  have hlenL : L.length = N.dims.length := by rw [hlen, List.length_zip, hRf.1, hm.1, Nat.min_self]
  refine ⟨L, ?_, ⟨hlenL, fun i x d hx hd => ((hi i x hx).1 d hd).1⟩,
    fun hf => ⟨hlenL, fun i x d hx hd => ((hi i x hx).1 d hd).2 hf⟩, fun i x p b y hx hp hb hy c => ?_⟩
  · unfold nodeUpdate
    rw [if_neg (by simp [hobs])]
    simp only [bind, Py.lift, ne_eq, not_true_eq_false, if_false]
    unfold updateDistribution
    simp only [bind, hR, Py.get, Py.lift, Py.modify]
    have hL' : (R.zip m).mapM (fun p : Arr α × Arr α =>
        (npAdd p.1 p.2).bind fun a => (pure (npScaleBy s.annealing a) : Except PyErr (Arr α))) = .ok L := hL
    rw [hL']
  · have hlt : i < R.length := by
      rw [hRf.1, ← hP.1]; exact (List.getElem?_eq_some_iff.1 hp).1
    rw [(hi i x hx).2 _ y (List.getElem?_eq_getElem hlt) hy c, hRat i _ p b (List.getElem?_eq_getElem hlt) hp hb c]

theorem npSub_common {X Y : Arr α} {B : List Nat} (hX : BroadcastsTo X.shape B) (hY : BroadcastsTo Y.shape B) :
    ∃ r, npSub X Y = .ok r ∧ BroadcastsTo r.shape B ∧ ∀ c, r.at c = X.at c - Y.at c := by
  obtain ⟨s, hs, hb⟩ := isBroadcast_of_common hX hY
  refine ⟨⟨s, fun c => X.at c - Y.at c⟩, ?_, hb, fun c => ?_⟩
  · unfold npSub
    rw [(broadcastedShape_ok _ _).2 hs]
    rfl
  · show X.at (restrict s c) - Y.at (restrict s c) = _
    rw [at_restrict ⟨hs.rank_ge _ (by simp), fun k => hs.fits k _ (by simp)⟩,
      at_restrict ⟨hs.rank_ge _ (by simp), fun k => hs.fits k _ (by simp)⟩]

/-- The gradient, array by array. -/
theorem riemannianGradient_ok {phiP m : List (Arr α)} (hP : FitsNode N phiP) (hB : FitsNode N N.phiBias)
    (hm : FitsNode N m) (s : EState α) (hphi : FitsNode N s.phi) :
    ∃ G, riemannianGradient N (.ok phiP) (.ok m) s = .ok G ∧ G.length = N.dims.length ∧
      (∀ (i : Nat) x d, G[i]? = some x → N.dims[i]? = some d → x.shape = N.plates ++ d) ∧
      ∀ (i : Nat) x p b y z, G[i]? = some x → phiP[i]? = some p → N.phiBias[i]? = some b → m[i]? = some y →
        s.phi[i]? = some z → ∀ c, x.at c = s.annealing * (p.at c + b.at c + y.at c) - z.at c := by
  obtain ⟨R, hR, hRf, _, hRat⟩ := phiFromParents_ok hP hB
  obtain ⟨G, hG, hlen, hi⟩ := mapM_index
    (f := fun q : ((Arr α × Arr α) × Arr α) × List Nat =>
      riemannian1 s.annealing (N.plates ++ q.2) q.1.1.1 q.1.1.2 q.1.2) (((R.zip m).zip s.phi).zip N.dims)
    (Q := fun i r => (∀ d, N.dims[i]? = some d → r.shape = N.plates ++ d) ∧
      ∀ x y z, R[i]? = some x → m[i]? = some y → s.phi[i]? = some z →
        ∀ c, r.at c = s.annealing * (x.at c + y.at c) - z.at c) (by
    intro i a ha
    rw [List.getElem?_zip_eq_some, List.getElem?_zip_eq_some, List.getElem?_zip_eq_some] at ha
    obtain ⟨⟨⟨h1, h2⟩, h3⟩, hd⟩ := ha
    obtain ⟨r, hr, _, hb, hat⟩ := npAdd_common (hRf.2 i _ _ h1 hd) (hm.2 i _ _ h2 hd)
    obtain ⟨r2, hr2, hb2, hat2⟩ := npSub_common (X := npScaleBy s.annealing r) (Y := a.1.2) hb (hphi.2 i _ _ h3 hd)
    obtain ⟨r3, hr3, hib, hb3, hat3⟩ := npMul_common (X := r2) (Y := Arr.mk (N.plates ++ a.2) fun _ => (1 : α)) hb2
      (BroadcastsTo.refl _)
    refine ⟨r3, ?_, fun d hd' => ?_, fun x y z hx hy hz c => ?_⟩
    · simp only [riemannian1, bind, Except.bind, hr, hr2]
      exact hr3
    · rw [hd] at hd'
      cases hd'
      refine list_ext_axisLen ?_ fun k => ?_
      · have h5 := hib.rank_ge (N.plates ++ a.2) (by simp)
        have h6 := hb3.1
        omega
      · have h5 := hib.fits k (N.plates ++ a.2) (by simp)
        have h6 := hb3.2 k
        omega
    · rw [h1] at hx; rw [h2] at hy; rw [h3] at hz
      cases hx; cases hy; cases hz
      rw [hat3, hat2]
      show (s.annealing * r.at c - _) * 1 = _
      rw [hat, mul_one])
  refine ⟨G, ?_, ?_, fun i x d hx hd => (hi i x hx).1 d hd, fun i x p b y z hx hp hb hy hz c => ?_⟩
  · simp only [riemannianGradient, bind, Except.bind, hR]
    exact hG
  · simp only [hlen, List.length_zip, hRf.1, hm.1, hphi.1, Nat.min_self]
  · have hlt : i < R.length := by
      rw [hRf.1, ← hP.1]; exact (List.getElem?_eq_some_iff.1 hp).1
    rw [(hi i x hx).2 _ y z (List.getElem?_eq_getElem hlt) hy hz c, hRat i _ p b (List.getElem?_eq_getElem hlt) hp hb c]

omit [CommRing α] in
theorem updateMomentsAndCgf_phi (s : EState α) : (updateMomentsAndCgf N s).2.phi = s.phi := by
  have hset : ∀ (mask : Arr Bool) (l : List (Arr α × List Nat)) (i : Nat) (s : EState α),
      (setMomentsLoop N mask i l s).2.phi = s.phi := by
    intro mask l
    induction l with
    | nil => intro i s; rfl
    | cons a l ih =>
      intro i s
      have h1 : (setMoment N mask i a.1 a.2 s).2.phi = s.phi := by
        unfold setMoment
        cases s.u[i]? with
        | none => rfl
        | some old =>
          simp only
          cases broadcastedShape [old.shape, a.1.shape, (addTrailingAxes mask a.2.length).shape] with
          | error e => rfl
          | ok sh =>
            simp only
            cases repeatToShape old sh with
            | error e => rfl
            | ok rep =>
              simp only
              unfold setMomentAxes
              simp only
              split
              · rfl
              · split
                · rfl
                · split <;> rfl
      unfold setMomentsLoop
      simp only [bind]
      cases hr : setMoment N mask i a.1 a.2 s with
      | mk r t =>
        rw [hr] at h1
        cases r with
        | error e => exact h1
        | ok x => exact (ih (i + 1) t).trans h1
  unfold updateMomentsAndCgf
  simp only [bind, Py.get, Py.lift]
  cases N.moments s.phi (npNot s.observed) with
  | error e => rfl
  | ok ug =>
    show (setMomentsAndCgf N ug.1 ug.2 (npNot s.observed) s).2.phi = s.phi
    unfold setMomentsAndCgf setMoments
    simp only [bind, Py.lift]
    cases checkShape N.plates N.dims ug.1 true with
    | error e => rfl
    | ok x =>
      simp only
      have h2 := hset (npNot s.observed) (ug.1.zip N.dims) 0 s
      cases hr : setMomentsLoop N (npNot s.observed) 0 (ug.1.zip N.dims) s with
      | mk r t =>
        rw [hr] at h2
        cases r with
        | error e => exact h2
        | ok y =>
          simp only [Py.get]
          cases npWhere3 (npNot s.observed) ug.2 t.g with
          | error e => exact h2
          | ok g => exact h2

/-- **C24** (zero) For a node which is not fully observed, whatever the annealing, the Riemannian gradient is zero at
all coordinates iff the current parameters are those that `update()` sets. -/
theorem C24_zero_iff_partial [DecidableEq α] {phiP m : List (Arr α)} (hP : FitsNode N phiP) (hB : FitsNode N N.phiBias)
    (hm : FitsNode N m) (s : EState α) (hphi : FitsNode N s.phi) (hobs : npAll s.observed = false) :
    ∃ G, riemannianGradient N (.ok phiP) (.ok m) s = .ok G ∧ G.length = N.dims.length ∧
      (∀ (i : Nat) x d, G[i]? = some x → N.dims[i]? = some d → x.shape = N.plates ++ d) ∧
      ((∀ (i : Nat) x d, G[i]? = some x → N.dims[i]? = some d → ∀ c, ValidIn (N.plates ++ d) c → x.at c = 0) ↔
        SameReads N s.phi (nodeUpdate N 1 (.ok phiP) (.ok m) s).2.phi) := by
  obtain ⟨G, hG, hGl, hGs, hGat⟩ := riemannianGradient_ok hP hB hm s hphi
  obtain ⟨L, hL, hLf, _, hLat⟩ := nodeUpdate_phi hP hB hm s hobs
  refine ⟨G, hG, hGl, hGs, ?_⟩
  rw [hL, updateMomentsAndCgf_phi]
  have key : ∀ (i : Nat) g x z d, G[i]? = some g → L[i]? = some x → s.phi[i]? = some z → N.dims[i]? = some d →
      ∀ c, g.at c = x.at c - z.at c := by
    intro i g x z d hg hx hz hd c
    obtain ⟨p, hp, _⟩ := hP.get hd
    obtain ⟨b, hb, _⟩ := hB.get hd
    obtain ⟨y, hy, _⟩ := hm.get hd
    rw [hGat i g p b y z hg hp hb hy hz c, hLat i x p b y hx hp hb hy c]
  constructor
  · intro h i z x d hz hx hd c hc
    have hlt : i < G.length := by rw [hGl]; exact (List.getElem?_eq_some_iff.1 hd).1
    have hg := List.getElem?_eq_getElem hlt
    have h1 := h i _ d hg hd c hc
    rw [key i _ x z d hg hx hz hd c] at h1
    exact (sub_eq_zero.1 h1).symm
  · intro h i g d hg hd c hc
    obtain ⟨x, hx, _⟩ := hLf.get hd
    obtain ⟨z, hz, _⟩ := hphi.get hd
    rw [key i g x z d hg hx hz hd c, h i z x d hz hx hd c hc, sub_self]

/-- A distribution whose moments depend only on the values of the parameters, not on which plate axes are left to
broadcasting. -/
def RespectsBroadcasting (N : ENode α) : Prop :=
  ∀ (phi phi' : List (Arr α)) (mask : Arr Bool), FullNode N phi → FullNode N phi' → SameReads N phi phi' →
    ∀ u g, N.moments phi mask = .ok (u, g) → FullNode N u → BroadcastsTo g.shape N.plates →
      ∃ u' g', N.moments phi' mask = .ok (u', g') ∧ FullNode N u' ∧ SameReads N u u' ∧
        BroadcastsTo g'.shape N.plates ∧ ∀ p, ValidIn N.plates p → g.at p = g'.at p

omit [CommRing α] in
theorem checkShape_full {u : List (Arr α)} : checkShape N.plates N.dims u true = .ok () ↔ FullNode N u := by
  classical
  have h1 : ∀ d sh, checkShape1 N.plates d sh true = .ok () ↔ PlatesDims sh N.plates d := by
    intro d sh
    constructor
    · intro h
      have hb := checkShape1_ok h
      unfold checkShape1 at h
      rw [if_neg (by simp)] at h
      by_cases hd : d.length = 0
      · exact platesDims_of hb (by omega) (fun k hk => by omega)
      · rw [if_neg hd, isShapeSubset_ok_decide] at h
        simp only [bind, Except.bind] at h
        by_cases hb : BroadcastsTo (sh.take (sh.length - d.length)) N.plates ∧ sh.drop (sh.length - d.length) = d
        · exact ⟨_, by
            conv_lhs => rw [← List.take_append_drop (sh.length - d.length) sh]
            rw [hb.2], hb.1⟩
        · rw [if_pos (by
            simp only [Bool.not_eq_true', Bool.and_eq_false_iff, decide_eq_false_iff_not]
            tauto)] at h
          cases h
    · rintro ⟨S, rfl, hS⟩
      unfold checkShape1
      rw [if_neg (by simp)]
      by_cases hd : d.length = 0
      · rw [if_pos hd, isShapeSubset_ok_decide]
        have : BroadcastsTo (S ++ d) (N.plates ++ d) := Spec.PlatesDims.broadcastsTo ⟨S, rfl, hS⟩
        simp only [bind, Except.bind, this, decide_true]
        rfl
      · rw [if_neg hd, isShapeSubset_ok_decide]
        have e1 : (S ++ d).length - d.length = S.length := by simp
        rw [e1, List.take_left, List.drop_left]
        simp only [bind, Except.bind, hS, decide_true]
        rfl
  constructor
  · intro h
    have hl := (checkShape_ok h).1
    refine ⟨hl, fun i x d hx hd => ?_⟩
    unfold checkShape at h
    rw [if_neg (not_not.2 hl)] at h
    exact (h1 _ _).1 (forM_except_ok.1 h (d, x) (List.mem_of_getElem? (i := i) (by
      rw [List.getElem?_zip_eq_some]; exact ⟨hd, hx⟩)))
  · intro h
    unfold checkShape
    rw [if_neg (not_not.2 h.1)]
    refine forM_except_ok.2 fun p hp => ?_
    obtain ⟨i, hi⟩ := List.getElem?_of_mem hp
    rw [List.getElem?_zip_eq_some] at hi
    exact (h1 _ _).2 (h.2 i p.2 p.1 hi.2 hi.1)

/-- **C24** (unit step) For a node which is not fully observed, whatever the annealing: adding the Riemannian
gradient to `get_parameters()` and calling `set_parameters` gives the parameters, moments and lower bound term that
`update()` gives. -/
theorem C24_unit_step_partial [DecidableEq α] {phiP m : List (Arr α)} (hPfull : FullNode N phiP)
    (hB : FitsNode N N.phiBias) (hm : FitsNode N m) (s : EState α) (hs : EInv N s) (hphi : FitsNode N s.phi)
    (hobs : npAll s.observed = false) (hsg : BroadcastsTo s.g.shape N.plates) (hD : RespectsBroadcasting N)
    (t : EState α) (ht : nodeUpdate N 1 (.ok phiP) (.ok m) s = (.ok (), t))
    (hg : ∀ u g, N.moments t.phi (npNot s.observed) = .ok (u, g) → BroadcastsTo g.shape N.plates) :
    ∃ G P t', riemannianGradient N (.ok phiP) (.ok m) s = .ok G ∧
      (s.phi.zip G).mapM (fun p => npAdd p.1 p.2) = .ok P ∧ nodeSetParameters N P s = (.ok (), t') ∧
      SameReads N t.phi t'.phi ∧ SameReads N t.u t'.u ∧ ∀ p, ValidIn N.plates p → t.g.at p = t'.g.at p := by
  have hP := hPfull.fits
  obtain ⟨G, hG, hGl, hGs, hGat⟩ := riemannianGradient_ok hP hB hm s hphi
  obtain ⟨L, hL, hLf, hLfull, hLat⟩ := nodeUpdate_phi hP hB hm s hobs
  have hGf : FitsNode N G := ⟨hGl, fun i x d hx hd => by rw [hGs i x d hx hd]; exact BroadcastsTo.refl _⟩
  obtain ⟨P, hPm, hPl, hPi⟩ := mapM_index (f := fun p : Arr α × Arr α => npAdd p.1 p.2) (s.phi.zip G)
    (Q := fun i r => (∀ d, N.dims[i]? = some d → PlatesDims r.shape N.plates d) ∧
      ∀ p b, s.phi[i]? = some p → G[i]? = some b → ∀ c, r.at c = p.at c + b.at c) (by
    intro i a ha
    rw [List.getElem?_zip_eq_some] at ha
    have hlt : i < N.dims.length := by rw [← hphi.1]; exact (List.getElem?_eq_some_iff.1 ha.1).1
    have hd := List.getElem?_eq_getElem hlt
    obtain ⟨r, hr, hib, hb, hat⟩ := npAdd_common (hphi.2 i _ _ ha.1 hd) (hGf.2 i _ _ ha.2 hd)
    refine ⟨r, hr, fun d hd' => ?_, fun p b hp hb' c => ?_⟩
    · rw [hd] at hd'; cases hd'
      exact platesDims_of_isBroadcast hib hb (by simp : a.2.shape ∈ _)
        ⟨N.plates, hGs i _ _ ha.2 hd, BroadcastsTo.refl _⟩
    · rw [ha.1] at hp; rw [ha.2] at hb'; cases hp; cases hb'; exact hat c)
  have hPf : FullNode N P := ⟨by rw [hPl, List.length_zip, hphi.1, hGl, Nat.min_self], fun i x d hx hd => (hPi i x hx).1 d hd⟩
  have hsame : SameReads N L P := by
    intro i x w d hx hw hd c _
    obtain ⟨p, hp, _⟩ := hP.get hd
    obtain ⟨b, hb, _⟩ := hB.get hd
    obtain ⟨y, hy, _⟩ := hm.get hd
    obtain ⟨z, hz, _⟩ := hphi.get hd
    obtain ⟨g, hg', _⟩ := hGf.get hd
    rw [(hPi i w hw).2 z g hz hg' c, hGat i g p b y z hg' hp hb hy hz c, hLat i x p b y hx hp hb hy c]
    ring
  -- the update
  rw [hL] at ht
  have hsL : EInv N { s with phi := L } := (Kept.of_eq (t := { s with phi := L }) hs rfl rfl).inv
  have hsP : EInv N { s with phi := P } := (Kept.of_eq (t := { s with phi := P }) hs rfl rfl).inv
  have htphi : t.phi = L := by
    have := updateMomentsAndCgf_phi (N := N) { s with phi := L }
    rw [ht] at this
    exact this
  obtain ⟨u, g, hmom, _, _⟩ := updateMomentsAndCgf_new hsL (by rw [ht])
  have hmom' : N.moments L (npNot s.observed) = .ok (u, g) := hmom
  have hgb : BroadcastsTo g.shape N.plates := hg u g (by rw [htphi]; exact hmom')
  have hcheck : checkShape N.plates N.dims u true = .ok () := by
    have h1 := ht
    unfold updateMomentsAndCgf at h1
    simp only [bind, Py.get, Py.lift, hmom'] at h1
    cases hc : checkShape N.plates N.dims u true with
    | error e => simp [setMomentsAndCgf, setMoments, bind, Py.lift, hc] at h1
    | ok x => rfl
  obtain ⟨t1, ht1, _, _, _, has, htg⟩ := updateMomentsAndCgf_ok { s with phi := L } hsL u g hmom' hcheck hgb hsg
  have : t = t1 := by
    rw [ht1] at ht
    exact (Prod.mk.injEq _ _ _ _ ▸ ht).2.symm
  subst this
  -- the step
  obtain ⟨u', g', hmomP, hfull', hsu, hgb', hsg'⟩ := hD L P (npNot s.observed) (hLfull hPfull) hPf hsame u g hmom'
    (checkShape_full.1 hcheck) hgb
  obtain ⟨t', ht', _, htp', hinv', has', htg'⟩ := updateMomentsAndCgf_ok { s with phi := P } hsP u' g' hmomP
    (checkShape_full.2 hfull') hgb' hsg
  refine ⟨G, P, t', hG, hPm, ?_, ?_, ?_, ?_⟩
  · simp only [nodeSetParameters, bind, Py.modify]
    exact ht'
  · rw [htphi, htp']
    exact hsame
  · intro i a b d ha hb hd c hc
    have hlt : i < s.u.length := by rw [hs.length]; exact (List.getElem?_eq_some_iff.1 hd).1
    have hul : i < u.length := by rw [(checkShape_ok hcheck).1]; exact (List.getElem?_eq_some_iff.1 hd).1
    have hul' : i < u'.length := by rw [hfull'.1]; exact (List.getElem?_eq_some_iff.1 hd).1
    rw [has i _ _ a d (List.getElem?_eq_getElem hul) (List.getElem?_eq_getElem hlt) ha hd c hc,
      has' i _ _ b d (List.getElem?_eq_getElem hul') (List.getElem?_eq_getElem hlt) hb hd c hc,
      hsu i _ _ d (List.getElem?_eq_getElem hul) (List.getElem?_eq_getElem hul') hd c hc]
  · intro p hp
    rw [htg, htg', hsg' p hp]

end

/-! ### Examples -/

theorem fullNode_one {N : ENode ℤ} {d S : List Nat} {x : Arr ℤ} (hd : N.dims = [d]) (hx : x.shape = S ++ d)
    (h : BroadcastsTo S N.plates) : FullNode N [x] := by
  refine ⟨by rw [hd]; rfl, fun i y d' hy hd' => ?_⟩
  rw [hd] at hd'
  rcases i with _ | i
  · cases hy; cases hd'; exact ⟨S, hx, h⟩
  · cases i <;> cases hy

theorem fitsNode_one {N : ENode ℤ} {d : List Nat} {x : Arr ℤ} (hd : N.dims = [d])
    (h : BroadcastsTo x.shape (N.plates ++ d)) : FitsNode N [x] := by
  refine ⟨by rw [hd]; rfl, fun i y d' hy hd' => ?_⟩
  rw [hd] at hd'
  rcases i with _ | i
  · cases hy; cases hd'; exact h
  · cases i <;> cases hy

/-- plates 0 and 2 observed, annealing 3 -/
def exGradState : EState ℤ :=
  { exEState with observed := exEMask, annealing := 3, phi := [Arr.mk [1, 2] fun c => c 0], g := Arr.mk [] fun _ => 0 }

def exGradPhiP : List (Arr ℤ) := [Arr.mk [3, 2] fun c => 10 * c 1 + c 0]
def exGradM : List (Arr ℤ) := [Arr.mk [2] fun c => c 0]

theorem exGrad_fits : FullNode exENode exGradPhiP ∧ FitsNode exENode exENode.phiBias ∧ FitsNode exENode exGradM ∧
    FitsNode exENode exGradState.phi := by
  refine ⟨fullNode_one (d := [2]) (S := [3]) rfl rfl (BroadcastsTo.refl _), fitsNode_one rfl ⟨by decide, fun k => .inl rfl⟩,
    (fullNode_one (d := [2]) (S := []) rfl rfl ⟨by decide, fun k => .inl rfl⟩).fits,
    (fullNode_one (d := [2]) (S := [1]) rfl rfl ⟨by decide, fun k => .inl ?_⟩).fits⟩
  rcases k with _ | k
  · rfl
  · exact axisLen_of_ge (by simp)

theorem exGrad_respects : RespectsBroadcasting exENode := by
  intro phi phi' mask hf hf' hsame u g hm _ hg
  cases hm
  exact ⟨phi', _, rfl, hf', hsame, hg, fun p _ => rfl⟩

/-- The parameters are not at the update: the gradient is not zero.  They are at the update for the second state. -/
example : ∃ G, riemannianGradient exENode (.ok exGradPhiP) (.ok exGradM) exGradState = .ok G ∧
    ¬ SameReads exENode exGradState.phi (nodeUpdate exENode 1 (.ok exGradPhiP) (.ok exGradM) exGradState).2.phi := by
  obtain ⟨h1, h2, h3, h4⟩ := exGrad_fits
  obtain ⟨G, hG, hl, _, hiff⟩ := C24_zero_iff_partial h1.fits h2 h3 exGradState h4 (by decide +kernel)
  refine ⟨G, hG, fun h => ?_⟩
  have hz := hiff.2 h
  have hv : (riemannianGradient exENode (.ok exGradPhiP) (.ok exGradM) exGradState).toOption.map (fun G =>
      G.map (fun a => a.at (coord [0, 1]))) = some [5] := by decide +kernel
  rw [hG] at hv
  have hlt : 0 < G.length := by rw [hl]; decide
  have hg := List.getElem?_eq_getElem hlt
  have h0 := hz 0 _ [2] hg rfl (coord [0, 1]) (by
    intro k
    rcases k with _ | _ | k
    · decide
    · decide
    · rw [axisLen_of_ge (by show 2 ≤ _; omega)]; simp [coord])
  have h5 : G.map (fun a => a.at (coord [0, 1])) = [5] := by simpa [Except.toOption] using hv
  have h6 := congrArg (fun l => l[0]?) h5
  simp only [List.getElem?_map, hg, Option.map_some] at h6
  rw [h0] at h6
  revert h6
  decide

example : ∃ G P t', riemannianGradient exENode (.ok exGradPhiP) (.ok exGradM) exGradState = .ok G ∧
    (exGradState.phi.zip G).mapM (fun p => npAdd p.1 p.2) = .ok P ∧ nodeSetParameters exENode P exGradState = (.ok (), t') := by
  obtain ⟨h1, h2, h3, h4⟩ := exGrad_fits
  obtain ⟨G, P, t', a, b, c, _⟩ := C24_unit_step_partial h1 h2 h3 exGradState
    ⟨exEInv.length, exEInv.rank, exEInv.shape, BroadcastsTo.refl _⟩ h4 (by decide +kernel)
    ⟨by decide, fun k => .inl rfl⟩ exGrad_respects _
    (Prod.ext (by decide +kernel) rfl) (by
      intro u g h
      cases h
      exact ⟨by decide, fun k => .inl rfl⟩)
  exact ⟨G, P, t', a, b, c⟩

/-- **C24** (what is not true) On a fully observed node `update()` leaves the parameters as they are, but the gradient
is that of the update of an unobserved node, so it need not vanish. -/
theorem C24_observed_refuted :
    ∃ (N : ENode ℤ) (phiP m : List (Arr ℤ)) (s : EState ℤ), FitsNode N phiP ∧ FitsNode N N.phiBias ∧ FitsNode N m ∧
      FitsNode N s.phi ∧ EInv N s ∧ npAll s.observed = true ∧
      SameReads N s.phi (nodeUpdate N 1 (.ok phiP) (.ok m) s).2.phi ∧
      (riemannianGradient N (.ok phiP) (.ok m) s).toOption.map (fun G =>
        G.map fun a => (indices [3, 2]).map fun t => a.at (coord t)) = some [[0, 5, 30, 35, 60, 65]] := by
  obtain ⟨h1, h2, h3, h4⟩ := exGrad_fits
  refine ⟨exENode, exGradPhiP, exGradM, { exGradState with observed := Arr.mk [] fun _ => true }, h1.fits, h2, h3, h4,
    ⟨exEInv.length, exEInv.rank, exEInv.shape, ⟨by decide, fun k => .inl rfl⟩⟩, by decide +kernel, ?_,
    by decide +kernel⟩
  intro i x y d hx hy _ c _
  have : (nodeUpdate exENode 1 (.ok exGradPhiP) (.ok exGradM)
      { exGradState with observed := Arr.mk [] fun _ => true }).2 = { exGradState with observed := Arr.mk [] fun _ => true } := rfl
  rw [this] at hy
  rw [hx] at hy
  cases hy
  rfl

end Verif
