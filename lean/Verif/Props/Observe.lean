import Verif.Model.ExpFamily
import Verif.Lemmas.Collapse
import Verif.Lemmas.Linalg
import Verif.Props.SumToShape

/-!
# C25: observed plates are never modified by inference

A coordinate `c` of a moment array of the node names the plate `fun k => c (k + ndim)`, where `ndim` is the number of
variable axes.
-/

namespace Verif
open Spec

section
variable {α : Type} {N : ENode α}

/-- Consistent state: one moment array per `dims`, all with the full number of axes. -/
structure EInv (N : ENode α) (s : EState α) : Prop where
  length : s.u.length = N.dims.length
  rank : ∀ (i : Nat) ui d, s.u[i]? = some ui → N.dims[i]? = some d → ui.shape.length = (N.plates ++ d).length
  shape : ∀ (i : Nat) ui d, s.u[i]? = some ui → N.dims[i]? = some d → BroadcastsTo ui.shape (N.plates ++ d)
  observed : BroadcastsTo s.observed.shape N.plates

theorem checkShape1_ok {plates dims sh : List Nat} {b : Bool} (h : checkShape1 plates dims sh b = .ok ()) :
    BroadcastsTo sh (plates ++ dims) := by
  classical
  unfold checkShape1 at h
  cases b with
  | false =>
    rw [if_pos (by rfl)] at h
    by_cases hs : sh ≠ plates ++ dims
    · rw [if_pos hs] at h; cases h
    · rw [not_not.1 hs]; exact BroadcastsTo.refl _
  | true =>
    rw [if_neg (by simp)] at h
    by_cases hd : dims.length = 0
    · rw [if_pos hd, isShapeSubset_ok_decide] at h
      simp only [bind, Except.bind] at h
      by_cases hb : BroadcastsTo sh (plates ++ dims)
      · exact hb
      · rw [if_pos (by simp [hb])] at h; cases h
    · rw [if_neg hd, isShapeSubset_ok_decide] at h
      simp only [bind, Except.bind] at h
      by_cases hb : BroadcastsTo (sh.take (sh.length - dims.length)) plates ∧ sh.drop (sh.length - dims.length) = dims
      · have : PlatesDims sh plates dims := ⟨_, by
          conv_lhs => rw [← List.take_append_drop (sh.length - dims.length) sh]
          rw [hb.2], hb.1⟩
        exact this.broadcastsTo
      · rw [if_pos (by
          simp only [Bool.not_eq_true', Bool.and_eq_false_iff, decide_eq_false_iff_not]
          tauto)] at h
        cases h

theorem checkShape1_false {plates dims sh : List Nat} :
    checkShape1 plates dims sh false = if sh = plates ++ dims then .ok () else .error .valueError := by
  unfold checkShape1
  rw [if_pos (by rfl)]
  by_cases hs : sh = plates ++ dims
  · rw [if_pos hs, if_neg (not_not.2 hs)]; rfl
  · rw [if_neg hs, if_pos hs]; rfl

theorem forM_except_ok {β : Type} {l : List β} {f : β → Except PyErr Unit} :
    l.forM f = .ok () ↔ ∀ x ∈ l, f x = .ok () := by
  induction l with
  | nil => simp; rfl
  | cons x l ih =>
    show (f x >>= fun _ => l.forM f) = _ ↔ _
    cases hx : f x with
    | error e => simp [bind, Except.bind, hx]
    | ok a =>
      show l.forM f = _ ↔ _
      rw [ih]
      simp [hx]

theorem forM_except_error {β : Type} {l : List β} {f : β → Except PyErr Unit} {e : PyErr}
    (h : ∀ x ∈ l, f x = .ok () ∨ f x = .error e) (h' : ¬ ∀ x ∈ l, f x = .ok ()) : l.forM f = .error e := by
  induction l with
  | nil => simp at h'
  | cons x l ih =>
    show (f x >>= fun _ => l.forM f) = _
    rcases h x (by simp) with hx | hx
    · rw [hx]
      exact ih (fun y hy => h y (List.mem_cons_of_mem _ hy)) (fun hall => h' fun y hy => by
        rcases List.mem_cons.1 hy with rfl | hy
        · exact hx
        · exact hall y hy)
    · rw [hx]; rfl

theorem validIn_restrict {s t : List Nat} {c : Nat → Nat} (hs : BroadcastsTo s t) (hc : ValidIn t c) :
    ValidIn s (restrict s c) := by
  intro k
  unfold restrict
  by_cases h : axisLen s k = 1
  · rw [if_pos h, h]; exact Nat.zero_lt_one
  · rw [if_neg h]
    have := hs.2 k
    have := hc k
    omega

theorem at_restrict {β : Type} {X : Arr β} {s : List Nat} (h : BroadcastsTo X.shape s) (c : Nat → Nat) :
    X.at (restrict s c) = X.at c := by
  apply X.at_congr
  intro k hk
  unfold restrict
  rw [if_neg]
  have := h.2 k
  omega

/-- One array: only the coordinates selected by the mask change, and they get the new values. -/
theorem setMoment_ok {s : EState α} {mask : Arr Bool} {ind : Nat} {u old : Arr α} {d : List Nat}
    (hold : s.u[ind]? = some old) (hor : old.shape.length = (N.plates ++ d).length)
    (hob : BroadcastsTo old.shape (N.plates ++ d)) (hu : BroadcastsTo u.shape (N.plates ++ d))
    (hm : BroadcastsTo mask.shape N.plates) :
    ∃ new : Arr α, setMoment N mask ind u d s = (.ok (), { s with u := s.u.set ind new }) ∧
      new.shape.length = (N.plates ++ d).length ∧ BroadcastsTo new.shape (N.plates ++ d) ∧
      ∀ c, ValidIn (N.plates ++ d) c → new.at c =
        if mask.at (fun k => c (k + d.length)) then u.at c else old.at c := by
  obtain ⟨hmb, _⟩ : BroadcastsTo (addTrailingAxes mask d.length).shape (N.plates ++ d) ∧ True := by
    refine ⟨⟨?_, fun k => ?_⟩, trivial⟩
    · show (mask.shape ++ List.replicate d.length 1).length ≤ _
      have := hm.1
      simpa using this
    · rw [axisLen_addTrailingAxes, axisLen_append]
      split
      · exact .inl rfl
      · exact hm.2 _
  set umask := addTrailingAxes mask d.length with humask
  have hall : ∀ t ∈ [old.shape, u.shape, umask.shape], BroadcastsTo t (N.plates ++ d) := by
    intro t ht
    simp only [List.mem_cons, List.not_mem_nil, or_false] at ht
    rcases ht with rfl | rfl | rfl
    · exact hob
    · exact hu
    · exact hmb
  obtain ⟨sh, hsh⟩ : ∃ sh, IsBroadcast [old.shape, u.shape, umask.shape] sh := by
    rw [exists_isBroadcast_iff]
    intro k x hx y hy
    have h1 := (hall x hx).2 k
    have h2 := (hall y hy).2 k
    omega
  have hshb : BroadcastsTo sh (N.plates ++ d) := by
    constructor
    · rcases hsh.rank_le with h | ⟨t, ht, hle⟩
      · omega
      · rw [← hle]; exact (hall t ht).1
    · intro k
      rcases hsh.attained k with h | ⟨t, ht, h⟩
      · exact .inl h
      · rw [← h]; exact (hall t ht).2 k
  have hto : ∀ t ∈ [old.shape, u.shape, umask.shape], BroadcastsTo t sh :=
    fun t ht => ⟨hsh.rank_ge t ht, fun k => hsh.fits k t ht⟩
  have hrank : sh.length = (N.plates ++ d).length := by
    have h1 := hshb.1
    have h2 := hsh.rank_ge old.shape (by simp)
    omega
  obtain ⟨rep, hrep, hreps, hrepat⟩ := (C07_repeat_to_shape old sh).1 (hto _ (by simp))
  refine ⟨npCopyTo rep u umask, ?_, ?_, ?_, fun c hc => ?_⟩
  · unfold setMoment
    rw [hold]
    simp only
    rw [(broadcastedShape_ok _ _).2 hsh]
    simp only
    rw [hrep]
    simp only
    unfold setMomentAxes
    have hlt : ind < s.u.length := (List.getElem?_eq_some_iff.1 hold).1
    simp only [List.getElem?_set_self hlt]
    have : (npCopyTo rep u umask).shape.length = (N.plates ++ d).length := by
      show rep.shape.length = _
      rw [hreps, hrank]
    rw [← humask, if_neg (by omega), if_neg (by omega)]
  · show rep.shape.length = _
    rw [hreps, hrank]
  · show BroadcastsTo rep.shape _
    rw [hreps]; exact hshb
  · have hv : ValidIn sh (restrict sh c) := validIn_restrict hshb hc
    show (if umask.at (restrict rep.shape c) then u.at (restrict rep.shape c) else rep.get (restrict rep.shape c)) = _
    rw [hreps, hrepat _ hv, at_restrict (hto _ (by simp)), at_restrict (hto _ (by simp)), at_restrict (hto _ (by simp)),
      humask, addTrailingAxes_at]

/-- Only the coordinates selected by the mask change, and they get the new values. -/
def Assigned (N : ENode α) (mask : Arr Bool) (new old res : List (Arr α)) : Prop :=
  ∀ (i : Nat) n o r d, new[i]? = some n → old[i]? = some o → res[i]? = some r → N.dims[i]? = some d →
    ∀ c, ValidIn (N.plates ++ d) c → r.at c = if mask.at (fun k => c (k + d.length)) then n.at c else o.at c

theorem setMomentsLoop_ok {mask : Arr Bool} (hm : BroadcastsTo mask.shape N.plates) (l : List (Arr α × List Nat))
    (ind : Nat) (s : EState α) (hs : EInv N s)
    (hl : ∀ (j : Nat) a, l[j]? = some a → N.dims[ind + j]? = some a.2 ∧ BroadcastsTo a.1.shape (N.plates ++ a.2)) :
    ∃ us, setMomentsLoop N mask ind l s = (.ok (), { s with u := us }) ∧ EInv N { s with u := us } ∧
      (∀ j, j < ind ∨ ind + l.length ≤ j → us[j]? = s.u[j]?) ∧
      ∀ (j : Nat) a o r, l[j]? = some a → s.u[ind + j]? = some o → us[ind + j]? = some r →
        ∀ c, ValidIn (N.plates ++ a.2) c → r.at c = if mask.at (fun k => c (k + a.2.length)) then a.1.at c else o.at c := by
  induction l generalizing ind s with
  | nil => exact ⟨s.u, rfl, hs, fun _ _ => rfl, fun j a o r h => by simp at h⟩
  | cons a l ih =>
    obtain ⟨hd, hb⟩ := hl 0 a rfl
    rw [Nat.add_zero] at hd
    have hlt : ind < s.u.length := by
      rw [hs.length]
      exact (List.getElem?_eq_some_iff.1 hd).1
    have hold := List.getElem?_eq_getElem hlt
    obtain ⟨new, hnew, hnr, hnb, hnat⟩ := setMoment_ok (N := N) (mask := mask) hold (hs.rank ind _ _ hold hd)
      (hs.shape ind _ _ hold hd) hb hm
    have hs1 : EInv N { s with u := s.u.set ind new } := by
      refine ⟨by simpa using hs.length, fun i ui d hi hdi => ?_, fun i ui d hi hdi => ?_, hs.observed⟩
      · change (s.u.set ind new)[i]? = some ui at hi
        by_cases h : ind = i
        · subst h
          rw [List.getElem?_set_self hlt] at hi
          cases hi
          rw [hd] at hdi
          cases hdi
          exact hnr
        · rw [List.getElem?_set_ne h] at hi
          exact hs.rank i ui d hi hdi
      · change (s.u.set ind new)[i]? = some ui at hi
        by_cases h : ind = i
        · subst h
          rw [List.getElem?_set_self hlt] at hi
          cases hi
          rw [hd] at hdi
          cases hdi
          exact hnb
        · rw [List.getElem?_set_ne h] at hi
          exact hs.shape i ui d hi hdi
    obtain ⟨us, hus, hinv, hkeep, hat⟩ := ih (ind + 1) _ hs1 (fun j b hj => by
      have := hl (j + 1) b hj
      rwa [show ind + (j + 1) = ind + 1 + j by omega] at this)
    refine ⟨us, ?_, hinv, fun j hj => ?_, fun j b o r hb' ho hr c hc => ?_⟩
    · unfold setMomentsLoop
      simp only [bind, hnew]
      exact hus
    · rw [List.length_cons] at hj
      rw [hkeep j (by omega)]
      show (s.u.set ind new)[j]? = _
      rw [List.getElem?_set_ne (by omega)]
    · cases j with
      | zero =>
        simp only [List.getElem?_cons_zero, Option.some.injEq] at hb'
        subst hb'
        rw [Nat.add_zero] at ho hr
        rw [hkeep ind (by omega)] at hr
        change (s.u.set ind new)[ind]? = some r at hr
        rw [List.getElem?_set_self hlt] at hr
        rw [hold] at ho
        cases hr
        cases ho
        exact hnat c hc
      | succ j =>
        simp only [List.getElem?_cons_succ] at hb'
        rw [show ind + (j + 1) = ind + 1 + j by omega] at ho hr
        exact hat j b o r hb' (by
          show (s.u.set ind new)[ind + 1 + j]? = _
          rw [List.getElem?_set_ne (by omega)]
          exact ho) hr c hc

theorem checkShape_ok {plates : List Nat} {dims : List (List Nat)} {u : List (Arr α)} {b : Bool}
    (h : checkShape plates dims u b = .ok ()) : u.length = dims.length ∧
      ∀ (i : Nat) ui d, u[i]? = some ui → dims[i]? = some d → BroadcastsTo ui.shape (plates ++ d) := by
  unfold checkShape at h
  by_cases hl : u.length = dims.length
  · rw [if_neg (not_not.2 hl)] at h
    refine ⟨hl, fun i ui d hu hd => ?_⟩
    have := forM_except_ok.1 h (d, ui) (List.mem_of_getElem? (i := i) (by
      rw [List.getElem?_zip_eq_some]; exact ⟨hd, hu⟩))
    exact checkShape1_ok this
  · rw [if_pos hl] at h; cases h

/-- `_set_moments`: either the shapes are wrong and nothing changes, or exactly the masked plates get the new
values. -/
theorem setMoments_ok {mask : Arr Bool} (hm : BroadcastsTo mask.shape N.plates) (u : List (Arr α)) (b : Bool)
    (s : EState α) (hs : EInv N s) :
    (∃ e, checkShape N.plates N.dims u b = .error e ∧ setMoments N u mask b s = (.error e, s)) ∨
    (checkShape N.plates N.dims u b = .ok () ∧ ∃ us, setMoments N u mask b s = (.ok (), { s with u := us }) ∧
      EInv N { s with u := us } ∧ Assigned N mask u s.u us) := by
  cases hc : checkShape N.plates N.dims u b with
  | error e => exact .inl ⟨e, rfl, by unfold setMoments; simp only [bind, Py.lift, hc]⟩
  | ok x =>
    right
    obtain ⟨hlen, hsh⟩ := checkShape_ok hc
    obtain ⟨us, hus, hinv, _, hat⟩ := setMomentsLoop_ok (N := N) hm (u.zip N.dims) 0 s hs (by
      intro j a ha
      rw [List.getElem?_zip_eq_some] at ha
      rw [Nat.zero_add]
      exact ⟨ha.2, hsh j a.1 a.2 ha.1 ha.2⟩)
    refine ⟨rfl, us, ?_, hinv, fun i n o r d hn ho hr hd c hcv => ?_⟩
    · unfold setMoments
      simp only [bind, Py.lift, hc]
      exact hus
    · exact hat i (n, d) o r (by rw [List.getElem?_zip_eq_some]; exact ⟨hn, hd⟩) (by rwa [Nat.zero_add])
        (by rwa [Nat.zero_add]) c hcv

/-- The state `t` comes from `s` by an operation which respects the observations. -/
structure Kept (N : ENode α) (s t : EState α) : Prop where
  inv : EInv N t
  observed : t.observed = s.observed
  same : ∀ (i : Nat) a b d, s.u[i]? = some a → t.u[i]? = some b → N.dims[i]? = some d →
    ∀ c, ValidIn (N.plates ++ d) c → s.observed.at (fun k => c (k + d.length)) = true → b.at c = a.at c

theorem Kept.of_eq {s t : EState α} (hs : EInv N s) (hu : t.u = s.u) (ho : t.observed = s.observed) : Kept N s t := by
  refine ⟨⟨by rw [hu]; exact hs.length, by rw [hu]; exact hs.rank, by rw [hu]; exact hs.shape, by
    rw [ho]; exact hs.observed⟩, ho, fun i a b d ha hb _ c _ _ => ?_⟩
  rw [hu, ha] at hb
  cases hb
  rfl

theorem Kept.trans {s t r : EState α} (h1 : Kept N s t) (h2 : Kept N t r) (hs : EInv N s) : Kept N s r := by
  refine ⟨h2.inv, by rw [h2.observed, h1.observed], fun i a b d ha hb hd c hc hob => ?_⟩
  have hi : i < t.u.length := by
    rw [h1.inv.length, ← hs.length]
    exact (List.getElem?_eq_some_iff.1 ha).1
  have ht := List.getElem?_eq_getElem hi
  rw [h2.same i _ b d ht hb hd c hc (by rw [h1.observed]; exact hob), h1.same i a _ d ha ht hd c hc hob]

theorem npNot_at (X : Arr Bool) (c : Nat → Nat) : (npNot X).at c = !X.at c := rfl

theorem setMomentsAndCgf_kept (u : List (Arr α)) (g : Arr α) (s : EState α) (hs : EInv N s) :
    Kept N s (setMomentsAndCgf N u g (npNot s.observed) s).2 := by
  unfold setMomentsAndCgf
  simp only [bind]
  rcases setMoments_ok (N := N) (mask := npNot s.observed) hs.observed u true s hs with ⟨e, _, h⟩ | ⟨_, us, h, hinv, has⟩
  · rw [h]
    exact Kept.of_eq hs rfl rfl
  · have hk : Kept N s { s with u := us } := by
      refine ⟨hinv, rfl, fun i a b d ha hb hd c hc hob => ?_⟩
      by_cases hn : i < u.length
      · rw [has i _ a b d (List.getElem?_eq_getElem hn) ha hb hd c hc, npNot_at, hob]
        rfl
      · exfalso
        have := (checkShape_ok ‹_›).1
        have := (List.getElem?_eq_some_iff.1 hd).1
        omega
    rw [h]
    simp only [Py.get, Py.lift]
    cases npWhere3 (npNot s.observed) g s.g with
    | error e => exact hk
    | ok g' => exact hk.trans (Kept.of_eq hinv rfl rfl) hs

theorem updateMomentsAndCgf_kept (s : EState α) (hs : EInv N s) : Kept N s (updateMomentsAndCgf N s).2 := by
  unfold updateMomentsAndCgf
  simp only [bind, Py.get, Py.lift]
  cases N.moments s.phi (npNot s.observed) with
  | error e => exact Kept.of_eq hs rfl rfl
  | ok ug => exact setMomentsAndCgf_kept ug.1 ug.2 s hs

theorem fixPhiLoop_phi (l : List (List Nat)) (i : Nat) (s : EState α) :
    ∃ r phi, fixPhiLoop N i l s = (r, { s with phi := phi }) := by
  induction l generalizing i s with
  | nil => exact ⟨_, s.phi, rfl⟩
  | cons d l ih =>
    unfold fixPhiLoop
    simp only [bind, Py.get]
    cases s.phi[i]? with
    | none => exact ⟨_, s.phi, rfl⟩
    | some phi =>
      simp only [Py.lift]
      cases fixPhi N d phi with
      | error e => exact ⟨_, s.phi, rfl⟩
      | ok phi' =>
        simp only [Py.modify]
        obtain ⟨r, phi2, h⟩ := ih (i + 1) { s with phi := s.phi.set i phi' }
        rw [h]
        exact ⟨r, phi2, rfl⟩

theorem updatePhiFromParents_phi [Add α] (phiP : List (Arr α)) (s : EState α) :
    ∃ r phi, updatePhiFromParents N phiP s = (r, { s with phi := phi }) := by
  unfold updatePhiFromParents
  simp only [bind, Py.lift]
  cases phiFromParents N phiP with
  | error e => exact ⟨_, s.phi, rfl⟩
  | ok phi =>
    simp only [Py.modify]
    obtain ⟨r, phi2, h⟩ := fixPhiLoop_phi (N := N) N.dims 0 { s with phi := phi }
    rw [h]
    exact ⟨r, phi2, rfl⟩

/-- Inference operations on a node, with arbitrary messages, parameters and values. -/
inductive NodeOp (α : Type) where
  /-- `update(annealing)`; `phiP` and `m` come from the parents and the children -/
  | update (annealing : α) (phiP m : Except PyErr (List (Arr α)))
  /-- `initialize_from_prior`, `initialize_from_parameters` -/
  | initFromParents (phiP : Except PyErr (List (Arr α)))
  /-- `initialize_from_value`, `initialize_from_random` -/
  | initFromValue (inf : Arr α) (u : Except PyErr (List (Arr α)))
  /-- `set_parameters` -/
  | setParameters (x : List (Arr α))

/-- The call itself. -/
def NodeOp.exec [Add α] [Mul α] [One α] [DecidableEq α] (N : ENode α) : NodeOp α → Py (EState α) Unit
  | .update a phiP m => nodeUpdate N a phiP m
  | .initFromParents phiP => Verif.initFromParents N phiP
  | .initFromValue inf u => Verif.initFromValue N inf u
  | .setParameters x => nodeSetParameters N x

/-- The state after an operation, whether or not it raises. -/
def NodeOp.run [Add α] [Mul α] [One α] [DecidableEq α] (N : ENode α) (s : EState α) (o : NodeOp α) : EState α :=
  (o.exec N s).2

variable [Add α] [Mul α] [One α] [DecidableEq α]

theorem NodeOp.run_kept (s : EState α) (hs : EInv N s) (o : NodeOp α) : Kept N s (o.run N s) := by
  cases o with
  | update a phiP m =>
    show Kept N s (nodeUpdate N a phiP m s).2
    unfold nodeUpdate
    split
    · exact Kept.of_eq hs rfl rfl
    · simp only [bind, Py.lift]
      cases m with
      | error e => exact Kept.of_eq hs rfl rfl
      | ok m =>
        cases phiP with
        | error e => exact Kept.of_eq hs rfl rfl
        | ok phiP =>
          simp only
          unfold updateDistribution
          simp only [bind]
          obtain ⟨r, phi, h⟩ := updatePhiFromParents_phi (N := N) phiP s
          rw [h]
          cases r with
          | error e => exact Kept.of_eq hs rfl rfl
          | ok _ =>
            simp only [Py.get, Py.lift]
            split
            · rename_i x s' heq
              rw [Prod.mk.injEq] at heq
              rw [← heq.2]
              simp only [Py.modify]
              have hk : Kept N s { s with phi := x } := Kept.of_eq hs rfl rfl
              exact hk.trans (updateMomentsAndCgf_kept _ hk.inv) hs
            · rename_i x s' heq
              rw [Prod.mk.injEq] at heq
              rw [← heq.2]
              exact Kept.of_eq hs rfl rfl
  | initFromParents phiP =>
    show Kept N s (Verif.initFromParents N phiP s).2
    unfold Verif.initFromParents
    split
    · exact Kept.of_eq hs rfl rfl
    · simp only [bind, Py.lift]
      cases phiP with
      | error e => exact Kept.of_eq hs rfl rfl
      | ok phiP =>
        simp only
        obtain ⟨r, phi, h⟩ := updatePhiFromParents_phi (N := N) phiP s
        rw [h]
        cases r with
        | error e => exact Kept.of_eq hs rfl rfl
        | ok _ =>
          have hk : Kept N s { s with phi := phi } := Kept.of_eq hs rfl rfl
          exact hk.trans (updateMomentsAndCgf_kept _ hk.inv) hs
  | initFromValue inf u =>
    show Kept N s (Verif.initFromValue N inf u s).2
    unfold Verif.initFromValue
    simp only [bind, Py.get, Py.lift]
    cases u with
    | error e => exact Kept.of_eq hs rfl rfl
    | ok u =>
      simp only
      split
      · rename_i heq
        rw [Prod.mk.injEq] at heq
        rw [← heq.2]
        exact setMomentsAndCgf_kept u inf s hs
      · rename_i heq
        rw [Prod.mk.injEq] at heq
        rw [← heq.2]
        exact Kept.of_eq hs rfl rfl
  | setParameters x =>
    show Kept N s (nodeSetParameters N x s).2
    unfold nodeSetParameters
    simp only [bind, Py.modify]
    have hk : Kept N s { s with phi := x } := Kept.of_eq hs rfl rfl
    exact hk.trans (updateMomentsAndCgf_kept _ hk.inv) hs

theorem history_kept (ops : List (NodeOp α)) (s : EState α) (hs : EInv N s) :
    Kept N s (ops.foldl (fun s o => o.run N s) s) := by
  induction ops generalizing s with
  | nil => exact Kept.of_eq hs rfl rfl
  | cons o ops ih =>
    have h1 := NodeOp.run_kept s hs o
    exact h1.trans (ih _ h1.inv) hs

omit [Add α] [Mul α] [One α] [DecidableEq α] in
theorem nodeUpdateMask_mask (child : Except PyErr (Arr Bool)) (parents : Except PyErr Unit) (s : EState α) :
    ∃ r m, nodeUpdateMask N child parents s = (r, { s with mask := m }) := by
  unfold nodeUpdateMask
  simp only [bind, Py.lift]
  cases child with
  | error e => exact ⟨_, s.mask, rfl⟩
  | ok cm =>
    simp only [Py.get]
    cases npOr cm s.observed with
    | error e => exact ⟨_, s.mask, rfl⟩
    | ok m =>
      simp only [Py.modify]
      cases isShapeSubset m.shape N.plates with
      | error e => exact ⟨_, m, rfl⟩
      | ok b =>
        cases b with
        | false => exact ⟨_, m, rfl⟩
        | true => exact ⟨_, m, rfl⟩

omit [Add α] [Mul α] [One α] [DecidableEq α] in
/-- `np.where` of three arrays that broadcast to a common shape does not raise. -/
theorem npWhere3_ok {mask : Arr Bool} {X Y : Arr α} {B : List Nat} (hm : BroadcastsTo mask.shape B)
    (hX : BroadcastsTo X.shape B) (hY : BroadcastsTo Y.shape B) :
    ∃ Z, npWhere3 mask X Y = .ok Z ∧ BroadcastsTo Z.shape B ∧
      ∀ c, Z.at c = if mask.at c then X.at c else Y.at c := by
  have hall : ∀ t ∈ [mask.shape, X.shape, Y.shape], BroadcastsTo t B := by
    intro t ht
    simp only [List.mem_cons, List.not_mem_nil, or_false] at ht
    rcases ht with rfl | rfl | rfl
    · exact hm
    · exact hX
    · exact hY
  obtain ⟨sh, hsh⟩ : ∃ sh, IsBroadcast [mask.shape, X.shape, Y.shape] sh := by
    rw [exists_isBroadcast_iff]
    intro k x hx y hy
    have h1 := (hall x hx).2 k
    have h2 := (hall y hy).2 k
    omega
  have hto : ∀ t ∈ [mask.shape, X.shape, Y.shape], BroadcastsTo t sh :=
    fun t ht => ⟨hsh.rank_ge t ht, fun k => hsh.fits k t ht⟩
  refine ⟨⟨sh, fun c => if mask.at c then X.at c else Y.at c⟩, ?_, ⟨?_, fun k => ?_⟩, fun c => ?_⟩
  · unfold npWhere3
    rw [(broadcastedShape_ok _ _).2 hsh]
    rfl
  · rcases hsh.rank_le with h | ⟨t, ht, hle⟩
    · show sh.length ≤ _
      omega
    · show sh.length ≤ _
      rw [← hle]; exact (hall t ht).1
  · show axisLen sh k = 1 ∨ axisLen sh k = _
    rcases hsh.attained k with h | ⟨t, ht, h⟩
    · exact .inl h
    · rw [← h]; exact (hall t ht).2 k
  · show (if mask.at (restrict sh c) then X.at (restrict sh c) else Y.at (restrict sh c)) = _
    rw [at_restrict (hto _ (by simp)), at_restrict (hto _ (by simp)), at_restrict (hto _ (by simp))]

/-- The arrays have exactly the shape of the node. -/
def ExactShapes (N : ENode α) (u : List (Arr α)) : Prop :=
  u.length = N.dims.length ∧ ∀ (i : Nat) ui d, u[i]? = some ui → N.dims[i]? = some d → ui.shape = N.plates ++ d

omit [Add α] [Mul α] [One α] [DecidableEq α] in
theorem checkShape_exact (u : List (Arr α)) :
    (ExactShapes N u → checkShape N.plates N.dims u false = .ok ()) ∧
    (¬ ExactShapes N u → checkShape N.plates N.dims u false = .error .valueError) := by
  unfold checkShape ExactShapes
  by_cases hl : u.length = N.dims.length
  · rw [if_neg (not_not.2 hl)]
    have hiff : (∀ p ∈ N.dims.zip u, checkShape1 N.plates p.1 p.2.shape false = .ok ()) ↔
        ∀ (i : Nat) ui d, u[i]? = some ui → N.dims[i]? = some d → ui.shape = N.plates ++ d := by
      constructor
      · intro h i ui d hu hd
        have := h (d, ui) (List.mem_of_getElem? (i := i) (by rw [List.getElem?_zip_eq_some]; exact ⟨hd, hu⟩))
        rw [checkShape1_false] at this
        by_contra hne
        rw [if_neg hne] at this
        cases this
      · intro h p hp
        obtain ⟨i, hi⟩ := List.getElem?_of_mem hp
        rw [List.getElem?_zip_eq_some] at hi
        rw [checkShape1_false, if_pos (h i p.2 p.1 hi.2 hi.1)]
    constructor
    · intro h
      exact forM_except_ok.2 (hiff.2 h.2)
    · intro h
      apply forM_except_error
      · intro p _
        rw [checkShape1_false]
        split
        · exact .inl rfl
        · exact .inr rfl
      · intro hall
        exact h ⟨hl, hiff.1 hall⟩
  · rw [if_pos hl]
    exact ⟨fun h => absurd h.1 hl, fun _ => rfl⟩

omit [Add α] [Mul α] [One α] [DecidableEq α] in
/-- **C25** (observing) With a mask of the plates and values of the shape of the node, `observe` fixes the moments of
exactly the masked plates.  (`_update_mask` may still raise because of other nodes: the state is the same.) -/
theorem C25_observe (s : EState α) (hs : EInv N s) (u : List (Arr α)) (f : Arr α) (mask : Arr Bool)
    (hm : BroadcastsTo mask.shape N.plates) (hu : ExactShapes N u) (hf : BroadcastsTo f.shape N.plates)
    (hsf : BroadcastsTo s.f.shape N.plates) (child : Except PyErr (Arr Bool)) (parents : Except PyErr Unit) :
    let s' := (nodeObserve N (.ok (u, f)) mask child parents s).2
    s'.observed = mask ∧ EInv N s' ∧ Assigned N mask u s.u s'.u ∧
      ∀ c, s'.f.at c = if mask.at c then f.at c else s.f.at c := by
  intro s'
  rcases setMoments_ok (N := N) hm u false s hs with ⟨e, he, _⟩ | ⟨_, us, h, hinv, has⟩
  · rw [(checkShape_exact u).1 hu] at he
    cases he
  · obtain ⟨f', hf', _, hfat⟩ := npWhere3_ok hm hf hsf
    obtain ⟨r, m, hr⟩ := nodeUpdateMask_mask (N := N) child parents { s with u := us, f := f', observed := mask }
    have hs' : s' = { s with u := us, f := f', observed := mask, mask := m } := by
      simp only [s', nodeObserve, bind, Py.lift, h, Py.get, hf', Py.modify, hr]
    rw [hs']
    exact ⟨rfl, ⟨hinv.length, hinv.rank, hinv.shape, hm⟩, has, hfat⟩

/-- **C25** After `observe(x, mask)`, no sequence of updates, initialisations and settings of parameters (whatever
the messages, and whether or not some of them raise) changes the moments at the observed plates. -/
theorem C25_history (s : EState α) (hs : EInv N s) (u : List (Arr α)) (f : Arr α) (mask : Arr Bool)
    (hm : BroadcastsTo mask.shape N.plates) (hu : ExactShapes N u) (hf : BroadcastsTo f.shape N.plates)
    (hsf : BroadcastsTo s.f.shape N.plates) (child : Except PyErr (Arr Bool)) (parents : Except PyErr Unit)
    (ops : List (NodeOp α)) :
    let t := ops.foldl (fun s o => o.run N s) (nodeObserve N (.ok (u, f)) mask child parents s).2
    t.observed = mask ∧ t.u.length = N.dims.length ∧
      ∀ (i : Nat) ui ti d, u[i]? = some ui → t.u[i]? = some ti → N.dims[i]? = some d →
        ∀ c, ValidIn (N.plates ++ d) c → mask.at (fun k => c (k + d.length)) = true → ti.at c = ui.at c := by
  intro t
  obtain ⟨ho, hinv, has, _⟩ := C25_observe s hs u f mask hm hu hf hsf child parents
  have hk := history_kept (N := N) ops _ hinv
  refine ⟨by rw [← ho]; exact hk.observed, hk.inv.length, fun i ui ti d hui hti hd c hc hmc => ?_⟩
  have hi : i < (nodeObserve N (.ok (u, f)) mask child parents s).2.u.length := by
    rw [hinv.length]; exact (List.getElem?_eq_some_iff.1 hd).1
  have hi2 : i < s.u.length := by
    rw [hs.length]; exact (List.getElem?_eq_some_iff.1 hd).1
  have hmid := List.getElem?_eq_getElem hi
  have e1 := hk.same i _ ti d hmid hti hd c hc (by rw [ho]; exact hmc)
  have e2 := has i ui _ _ d hui (List.getElem?_eq_getElem hi2) hmid hd c hc
  rw [hmc] at e2
  rw [e1, e2]
  rfl

omit [Add α] [Mul α] [One α] [DecidableEq α] in
/-- `_update_moments_and_cgf` with moments of proper shapes does not raise, and assigns the unobserved plates. -/
theorem updateMomentsAndCgf_ok (s : EState α) (hs : EInv N s) (u : List (Arr α)) (g : Arr α)
    (hmom : N.moments s.phi (npNot s.observed) = .ok (u, g)) (hshape : checkShape N.plates N.dims u true = .ok ())
    (hg : BroadcastsTo g.shape N.plates) (hsg : BroadcastsTo s.g.shape N.plates) :
    ∃ t, updateMomentsAndCgf N s = (.ok (), t) ∧ t.observed = s.observed ∧ t.phi = s.phi ∧ EInv N t ∧
      Assigned N (npNot s.observed) u s.u t.u ∧
      ∀ p, t.g.at p = if s.observed.at p then s.g.at p else g.at p := by
  rcases setMoments_ok (N := N) (mask := npNot s.observed) hs.observed u true s hs with ⟨e, he, _⟩ | ⟨_, us, h, hinv, has⟩
  · rw [hshape] at he; cases he
  · obtain ⟨g', hg', _, hgat⟩ := npWhere3_ok (mask := npNot s.observed) hs.observed hg hsg
    refine ⟨{ s with u := us, g := g' }, ?_, rfl, rfl, ⟨hinv.length, hinv.rank, hinv.shape, hinv.observed⟩, has, fun p => ?_⟩
    · unfold updateMomentsAndCgf
      simp only [bind, Py.get, Py.lift, hmom]
      unfold setMomentsAndCgf
      simp only [bind, h, Py.get, Py.lift, hg', Py.modify]
    · show g'.at p = _
      rw [hgat, npNot_at]
      cases s.observed.at p <;> rfl

omit [Add α] [Mul α] [One α] [DecidableEq α] in
theorem setMomentsAndCgf_new {u : List (Arr α)} {g : Arr α} {s : EState α} (hs : EInv N s)
    (h : (setMomentsAndCgf N u g (npNot s.observed) s).1 = .ok ()) :
    Assigned N (npNot s.observed) u s.u (setMomentsAndCgf N u g (npNot s.observed) s).2.u ∧
      (setMomentsAndCgf N u g (npNot s.observed) s).2.phi = s.phi := by
  unfold setMomentsAndCgf at h ⊢
  simp only [bind] at h ⊢
  rcases setMoments_ok (N := N) (mask := npNot s.observed) hs.observed u true s hs with ⟨e, _, hm⟩ | ⟨_, us, hm, hinv, has⟩
  · rw [hm] at h
    cases h
  · rw [hm] at h ⊢
    simp only [Py.get, Py.lift] at h ⊢
    cases hw : npWhere3 (npNot s.observed) g s.g with
    | error e => rw [hw] at h; cases h
    | ok g' => exact ⟨has, rfl⟩

omit [Add α] [Mul α] [One α] [DecidableEq α] in
theorem updateMomentsAndCgf_new {s : EState α} (hs : EInv N s) (h : (updateMomentsAndCgf N s).1 = .ok ()) :
    ∃ u g, N.moments s.phi (npNot s.observed) = .ok (u, g) ∧
      Assigned N (npNot s.observed) u s.u (updateMomentsAndCgf N s).2.u ∧ (updateMomentsAndCgf N s).2.phi = s.phi := by
  unfold updateMomentsAndCgf at h ⊢
  simp only [bind, Py.get, Py.lift] at h ⊢
  cases hm : N.moments s.phi (npNot s.observed) with
  | error e => rw [hm] at h; cases h
  | ok ug =>
    rw [hm] at h
    exact ⟨ug.1, ug.2, rfl, setMomentsAndCgf_new hs h⟩

/-- Moments that an operation means to set, given the parameters after it. -/
def NodeOp.NewMoments (N : ENode α) (observed : Arr Bool) (phi : List (Arr α)) (u : List (Arr α)) : NodeOp α → Prop
  | .initFromValue _ x => x = .ok u
  | _ => ∃ g, N.moments phi (npNot observed) = .ok (u, g)

/-- **C25** (new values) Whenever an operation succeeds on a node which is not fully observed, every unobserved plate
has the new moments: those of the given value, or those computed by the distribution from the new parameters.  Every
observed plate has the same moments as before. -/
theorem C25_new_values (s : EState α) (hs : EInv N s) (hobs : npAll s.observed = false) (o : NodeOp α)
    (hok : (o.exec N s).1 = .ok ()) :
    ∃ u, o.NewMoments N s.observed (o.run N s).phi u ∧ u.length = N.dims.length ∧
      ∀ (i : Nat) new old res d, u[i]? = some new → s.u[i]? = some old → (o.run N s).u[i]? = some res →
        N.dims[i]? = some d → ∀ c, ValidIn (N.plates ++ d) c →
          res.at c = if s.observed.at (fun k => c (k + d.length)) then old.at c else new.at c := by
  have key : ∀ u us, Assigned N (npNot s.observed) u s.u us → 
      ∀ (i : Nat) new old res d, u[i]? = some new → s.u[i]? = some old → us[i]? = some res →
        N.dims[i]? = some d → ∀ c, ValidIn (N.plates ++ d) c →
          res.at c = if s.observed.at (fun k => c (k + d.length)) then old.at c else new.at c := by
    intro u us h i n o r d hn ho hr hd c hc
    rw [h i n o r d hn ho hr hd c hc, npNot_at]
    cases s.observed.at _ <;> rfl
  have hlen : ∀ {t : EState α} {u : List (Arr α)} {g : Arr α},
      (setMomentsAndCgf N u g (npNot t.observed) t).1 = .ok () → u.length = N.dims.length := by
    intro t u g h
    unfold setMomentsAndCgf setMoments at h
    cases hc : checkShape N.plates N.dims u true with
    | error e => simp [bind, Py.lift, hc] at h
    | ok x => exact (checkShape_ok hc).1
  have hlen2 : ∀ {t : EState α} {u : List (Arr α)} {g : Arr α}, (updateMomentsAndCgf N t).1 = .ok () →
      N.moments t.phi (npNot t.observed) = .ok (u, g) → u.length = N.dims.length := by
    intro t u g h hm
    unfold updateMomentsAndCgf at h
    simp only [bind, Py.get, Py.lift, hm] at h
    exact hlen h
  -- all ends by `_update_moments_and_cgf` from a state with the same moments and observations
  have hend : ∀ t : EState α, t.u = s.u → t.observed = s.observed → (updateMomentsAndCgf N t).1 = .ok () →
      ∃ u g, N.moments (updateMomentsAndCgf N t).2.phi (npNot s.observed) = .ok (u, g) ∧ u.length = N.dims.length ∧
        Assigned N (npNot s.observed) u s.u (updateMomentsAndCgf N t).2.u := by
    intro t hu ho h
    have ht : EInv N t := (Kept.of_eq hs hu ho).inv
    obtain ⟨u, g, hm, has, hphi⟩ := updateMomentsAndCgf_new ht h
    refine ⟨u, g, by rw [hphi, ← ho]; exact hm, hlen2 h hm, ?_⟩
    rw [hu, ho] at has
    exact has
  cases o with
  | update a phiP m =>
    have hok' : (nodeUpdate N a phiP m s).1 = .ok () := hok
    show ∃ u, (∃ g, N.moments (nodeUpdate N a phiP m s).2.phi (npNot s.observed) = .ok (u, g)) ∧ _ ∧
      ∀ (i : Nat) new old res d, u[i]? = some new → s.u[i]? = some old → (nodeUpdate N a phiP m s).2.u[i]? = some res → _
    unfold nodeUpdate at hok' ⊢
    rw [if_neg (by simp [hobs])] at hok' ⊢
    simp only [bind, Py.lift] at hok' ⊢
    cases m with
    | error e => cases hok'
    | ok m =>
      cases phiP with
      | error e => cases hok'
      | ok phiP =>
        simp only at hok' ⊢
        unfold updateDistribution at hok' ⊢
        simp only [bind] at hok' ⊢
        obtain ⟨r, phi, h⟩ := updatePhiFromParents_phi (N := N) phiP s
        rw [h] at hok' ⊢
        cases r with
        | error e => cases hok'
        | ok _ =>
          simp only [Py.get, Py.lift, Py.modify] at hok' ⊢
          generalize hL : (List.mapM _ _ : Except PyErr (List (Arr α))) = L at hok' ⊢
          cases L with
          | error e => cases hok'
          | ok x =>
            obtain ⟨u, g, h1, h2, h3⟩ := hend { s with phi := x } rfl rfl hok'
            exact ⟨u, ⟨g, h1⟩, h2, key _ _ h3⟩
  | initFromParents phiP =>
    have hok' : (Verif.initFromParents N phiP s).1 = .ok () := hok
    show ∃ u, (∃ g, N.moments (Verif.initFromParents N phiP s).2.phi (npNot s.observed) = .ok (u, g)) ∧ _ ∧
      ∀ (i : Nat) new old res d, u[i]? = some new → s.u[i]? = some old →
        (Verif.initFromParents N phiP s).2.u[i]? = some res → _
    unfold Verif.initFromParents at hok' ⊢
    rw [if_neg (by simp [hobs])] at hok' ⊢
    simp only [bind, Py.lift] at hok' ⊢
    cases phiP with
    | error e => cases hok'
    | ok phiP =>
      simp only at hok' ⊢
      obtain ⟨r, phi, h⟩ := updatePhiFromParents_phi (N := N) phiP s
      rw [h] at hok' ⊢
      cases r with
      | error e => cases hok'
      | ok _ =>
        obtain ⟨u, g, h1, h2, h3⟩ := hend { s with phi := phi } rfl rfl hok'
        exact ⟨u, ⟨g, h1⟩, h2, key _ _ h3⟩
  | initFromValue inf u =>
    have hok' : (Verif.initFromValue N inf u s).1 = .ok () := hok
    show ∃ u', u = .ok u' ∧ _ ∧
      ∀ (i : Nat) new old res d, u'[i]? = some new → s.u[i]? = some old →
        (Verif.initFromValue N inf u s).2.u[i]? = some res → _
    unfold Verif.initFromValue at hok' ⊢
    simp only [bind, Py.get, Py.lift] at hok' ⊢
    cases u with
    | error e => cases hok'
    | ok u =>
      simp only at hok' ⊢
      generalize hL : (List.forM _ _ : Except PyErr Unit) = L at hok' ⊢
      cases L with
      | error e => cases hok'
      | ok x => exact ⟨u, rfl, hlen hok', key _ _ (setMomentsAndCgf_new hs hok').1⟩
  | setParameters x =>
    obtain ⟨u, g, h1, h2, h3⟩ := hend { s with phi := x } rfl rfl hok
    exact ⟨u, ⟨g, h1⟩, h2, key _ _ h3⟩

omit [Add α] [Mul α] [One α] [DecidableEq α] in
/-- **C25** (unobserve) After `unobserve()` every plate takes the recomputed values. -/
theorem C25_unobserve (s : EState α) (hs : EInv N s) (child : Except PyErr (Arr Bool)) (parents : Except PyErr Unit) :
    let s1 := (nodeUnobserve N child parents s).2
    s1.u = s.u ∧ s1.phi = s.phi ∧ s1.observed.shape = [] ∧ (∀ p, s1.observed.at p = false) ∧ EInv N s1 ∧
    ∀ (u : List (Arr α)) (g : Arr α), N.moments s1.phi (npNot s1.observed) = .ok (u, g) →
      checkShape N.plates N.dims u true = .ok () → BroadcastsTo g.shape N.plates → BroadcastsTo s1.g.shape N.plates →
      ∃ t, updateMomentsAndCgf N s1 = (.ok (), t) ∧
        ∀ (i : Nat) n r d, u[i]? = some n → t.u[i]? = some r → N.dims[i]? = some d →
          ∀ c, ValidIn (N.plates ++ d) c → r.at c = n.at c := by
  intro s1
  obtain ⟨r, m, hr⟩ := nodeUpdateMask_mask (N := N) child parents { s with observed := Arr.mk [] fun _ => false }
  have hs1 : s1 = { s with observed := Arr.mk [] fun _ => false, mask := m } := by
    simp only [s1, nodeUnobserve, bind, Py.modify, hr]
  have hinv : EInv N s1 := by
    rw [hs1]
    exact ⟨hs.length, hs.rank, hs.shape, ⟨by simp, fun k => .inl rfl⟩⟩
  refine ⟨by rw [hs1], by rw [hs1], by rw [hs1], fun p => by rw [hs1]; rfl, hinv, fun u g hu hsh hg hsg => ?_⟩
  obtain ⟨t, ht, _, _, hti, has, _⟩ := updateMomentsAndCgf_ok s1 hinv u g hu hsh hg hsg
  refine ⟨t, ht, fun i n r' d hn hr' hd c hc => ?_⟩
  have hi : i < s1.u.length := by
    rw [hinv.length]; exact (List.getElem?_eq_some_iff.1 hd).1
  rw [has i n _ r' d hn (List.getElem?_eq_getElem hi) hr' hd c hc, npNot_at,
    show s1.observed.at _ = false from by rw [hs1]; rfl]
  rfl

omit [Add α] [Mul α] [One α] [DecidableEq α] in
/-- **C25** (failed observe) If the value is rejected by the distribution, or its moments have not the shape of the
node, `observe` raises and leaves the node as it was. -/
theorem C25_failed_observe (s : EState α) (fixed : Except PyErr (List (Arr α) × Arr α)) (mask : Arr Bool)
    (child : Except PyErr (Arr Bool)) (parents : Except PyErr Unit)
    (hfail : ∀ u f, fixed = .ok (u, f) → ¬ ExactShapes N u) :
    ∃ e, nodeObserve N fixed mask child parents s = (.error e, s) := by
  cases fixed with
  | error e => exact ⟨e, rfl⟩
  | ok uf =>
    refine ⟨.valueError, ?_⟩
    have := (checkShape_exact (N := N) uf.1).2 (hfail uf.1 uf.2 rfl)
    simp only [nodeObserve, bind, Py.lift, setMoments, this]

omit [Add α] [Mul α] [One α] [DecidableEq α] in
/-- The state of a new node (`stochastic.py` lines 117-126) is consistent. -/
theorem einv_new (s : EState α) (nan : α)
    (hu : s.u = N.dims.map fun d => Arr.mk (List.replicate N.plates.length 1 ++ d) fun _ => nan)
    (ho : s.observed = Arr.mk [] fun _ => false) : EInv N s := by
  refine ⟨by rw [hu]; simp, fun i ui d hi hd => ?_, fun i ui d hi hd => ?_, by rw [ho]; exact ⟨by simp, fun k => .inl rfl⟩⟩
  · rw [hu, List.getElem?_map, hd] at hi
    cases hi
    simp
  · rw [hu, List.getElem?_map, hd] at hi
    cases hi
    refine ⟨by simp, fun k => ?_⟩
    show axisLen (List.replicate N.plates.length 1 ++ d) k = 1 ∨ axisLen (List.replicate N.plates.length 1 ++ d) k = _
    rw [axisLen_append, axisLen_append]
    split
    · exact .inr rfl
    · left
      unfold axisLen
      rw [List.reverse_replicate, List.getElem?_replicate]
      split <;> rfl

end

/-! ### A concrete node: plates `[3]`, one vector moment of length 2; the distribution returns its parameters -/

def exENode : ENode ℤ where
  plates := [3]
  dims := [[2]]
  phiBias := [Arr.mk [] fun _ => 0]
  moments phi _ := .ok (phi, Arr.mk [] fun _ => 0)

/-- a new node -/
def exEState : EState ℤ where
  u := [Arr.mk [1, 2] fun _ => -1]
  phi := [Arr.mk [1, 2] fun _ => -1]
  g := Arr.mk [] fun _ => -1
  f := Arr.mk [] fun _ => -1
  observed := Arr.mk [] fun _ => false
  mask := Arr.mk [] fun _ => false
  annealing := 1

def exEValue : List (Arr ℤ) × Arr ℤ :=
  ([Arr.mk [3, 2] fun c => 10 * c 1 + c 0 + 5], Arr.mk [3] fun c => c 0)

/-- plates 0 and 2 -/
def exEMask : Arr Bool := Arr.mk [3] fun c => c 0 != 1

def exEOps : List (NodeOp ℤ) :=
  [.update 1 (.ok [Arr.mk [3, 2] fun c => 100 * c 1]) (.ok [Arr.mk [2] fun c => c 0]),
   .initFromValue (Arr.mk [] fun _ => 0) (.ok [Arr.mk [3, 2] fun _ => 77]),
   .setParameters [Arr.mk [7, 2] fun _ => 3],
   .initFromParents (.error .valueError),
   .setParameters [Arr.mk [3, 2] fun c => 1000 + c 1]]

theorem exEInv : EInv exENode exEState := einv_new exEState (-1) rfl rfl

theorem exExact : ExactShapes exENode exEValue.1 := by
  refine ⟨rfl, fun i ui d hu hd => ?_⟩
  rcases i with _ | i
  · cases hu; cases hd; rfl
  · cases i <;> cases hu

example : ∀ (i : Nat) ui ti d, exEValue.1[i]? = some ui →
    (exEOps.foldl (fun s o => o.run exENode s)
      (nodeObserve exENode (.ok exEValue) exEMask (.ok (Arr.mk [] fun _ => false)) (.ok ()) exEState).2).u[i]? = some ti →
    exENode.dims[i]? = some d → ∀ c, ValidIn ([3] ++ d) c → exEMask.at (fun k => c (k + d.length)) = true →
      ti.at c = ui.at c :=
  (C25_history exEState exEInv exEValue.1 exEValue.2 exEMask (BroadcastsTo.refl _) exExact (BroadcastsTo.refl _)
    ⟨by decide, fun k => .inl rfl⟩ _ _ exEOps).2.2

/-- The values that result: the observed plates 0 and 2 keep theirs, plate 1 has the last ones set. -/
example : ((exEOps.foldl (fun s o => o.run exENode s)
      (nodeObserve exENode (.ok exEValue) exEMask (.ok (Arr.mk [] fun _ => false)) (.ok ()) exEState).2).u.map fun a =>
        (indices [3, 2]).map fun t => a.at (coord t)) = [[5, 6, 1001, 1001, 25, 26]] := by decide +kernel

example : ((NodeOp.setParameters [Arr.mk [3, 2] fun c => (1000 : ℤ) + c 1]).exec exENode
    (nodeObserve exENode (.ok exEValue) exEMask (.ok (Arr.mk [] fun _ => false)) (.ok ()) exEState).2).1 = .ok () := by
  decide +kernel

example : ∃ e, nodeObserve exENode (.ok ([Arr.mk [2, 2] fun _ => 0], Arr.mk [] fun _ => 0)) exEMask
    (.ok (Arr.mk [] fun _ => false)) (.ok ()) exEState = (.error e, exEState) :=
  C25_failed_observe exEState _ _ _ _ (by
    intro u f h hex
    cases h
    have := hex.2 0 _ [2] rfl rfl
    revert this
    decide)

/-- **C25** (what is not true) A wrong shape of the mask is noticed too late: `observe` raises, but the moments, the
lower bound term and the observations have been changed. -/
theorem C25_bad_mask_refuted :
    ∃ (N : ENode ℤ) (s : EState ℤ) (u : List (Arr ℤ)) (f : Arr ℤ) (mask : Arr Bool), EInv N s ∧ ExactShapes N u ∧
      ¬ BroadcastsTo mask.shape N.plates ∧
      (nodeObserve N (.ok (u, f)) mask (.ok (Arr.mk [] fun _ => false)) (.ok ()) s).1 = .error .valueError ∧
      (nodeObserve N (.ok (u, f)) mask (.ok (Arr.mk [] fun _ => false)) (.ok ()) s).2.observed = mask ∧
      (nodeObserve N (.ok (u, f)) mask (.ok (Arr.mk [] fun _ => false)) (.ok ()) s).2.u.map (fun a => a.shape) ≠
        s.u.map (fun a => a.shape) := by
  refine ⟨{ exENode with plates := [1] }, exEState, [Arr.mk [1, 2] fun _ => 4], Arr.mk [] fun _ => 0,
    Arr.mk [2] fun _ => true, einv_new _ (-1) rfl rfl, ⟨rfl, fun i ui d hu hd => ?_⟩, ?_, ?_, ?_, ?_⟩
  · rcases i with _ | i
    · cases hu; cases hd; rfl
    · cases i <;> cases hu
  · intro h
    have := h.2 0
    revert this
    decide
  · decide +kernel
  · rfl
  · decide +kernel

end Verif
