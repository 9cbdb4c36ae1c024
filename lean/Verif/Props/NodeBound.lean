import Verif.Model.NodeBound
import Verif.Spec.NodeBound
import Verif.Lemmas.PlateOps
import Verif.Props.Mixture
import Verif.Props.FlattenAxes

/-!
# C83: the lower bound of a node is the sum over its plates
-/

namespace Verif
open Spec

section
variable {P d : List Nat}

/-! ## Sums of floats -/

theorem fin_inj {a b : ℝ} : Flt.fin a = Flt.fin b ↔ a = b := ⟨fun h => by cases h; rfl, fun h => by rw [h]⟩

theorem list_sum_fin {ι : Type*} (l : List ι) {f : ι → Flt} {g : ι → ℝ} (h : ∀ i ∈ l, f i = .fin (g i)) :
    (l.map f).sum = .fin (l.map g).sum := by
  induction l with
  | nil => rfl
  | cons a l ih =>
    rw [List.map_cons, List.sum_cons, h a (by simp), ih fun i hi => h i (List.mem_cons_of_mem _ hi), List.map_cons, List.sum_cons]
    rfl

theorem sumOver_fin (s : List Nat) {f : (Nat → Nat) → Flt} {g : (Nat → Nat) → ℝ} (h : ∀ i ∈ indices s, f (coord i) = .fin (g (coord i))) :
    sumOver s f = .fin (sumOver s g) := list_sum_fin _ h

theorem npSub_flt {X Y : Arr Flt} {B : List Nat} (hX : BroadcastsTo X.shape B) (hY : BroadcastsTo Y.shape B) :
    ∃ r, npSub X Y = .ok r ∧ BroadcastsTo r.shape B ∧ ∀ c, r.at c = X.at c - Y.at c := by
  obtain ⟨s, hs, hb⟩ := isBroadcast_of_common hX hY
  refine ⟨⟨s, fun c => X.at c - Y.at c⟩, ?_, hb, fun c => ?_⟩
  · unfold npSub
    rw [(broadcastedShape_ok _ _).2 hs]
    rfl
  · show X.at (restrict s c) - Y.at (restrict s c) = _
    rw [at_restrict ⟨hs.rank_ge _ (by simp), fun k => hs.fits k _ (by simp)⟩,
      at_restrict ⟨hs.rank_ge _ (by simp), fun k => hs.fits k _ (by simp)⟩]

theorem npWhere_flt {m : Arr Bool} {X : Arr Flt} {B : List Nat} (hm : BroadcastsTo m.shape B) (hX : BroadcastsTo X.shape B) :
    ∃ r, npWhere m X = .ok r ∧ IsBroadcast [m.shape, X.shape] r.shape ∧ BroadcastsTo r.shape B ∧
      ∀ c, r.at c = if m.at c then X.at c else 0 := by
  obtain ⟨s, hs, hb⟩ := isBroadcast_of_common hm hX
  obtain ⟨w, hw, hws, hat⟩ := npWhere_ok hs
  exact ⟨w, hw, hws ▸ hs, hws ▸ hb, hat⟩

/-! ## One moment -/

theorem latent_mask {m : Arr Bool} (hm : BroadcastsTo m.shape P) :
    BroadcastsTo (addTrailingAxes (addLeadingAxes m (P.length - m.shape.length)) d.length).shape (P ++ d) ∧
      ∀ e c, (addTrailingAxes (addLeadingAxes m (P.length - m.shape.length)) d.length).at (joinC d.length e c) = m.at c := by
  have h1 : BroadcastsTo (addLeadingAxes m (P.length - m.shape.length)).shape P := by
    refine ⟨?_, fun k => by rw [axisLen_addLeadingAxes]; exact hm.2 k⟩
    have := hm.1
    simp only [addLeadingAxes, List.length_append, List.length_replicate]
    omega
  refine ⟨⟨?_, fun k => ?_⟩, fun e c => ?_⟩
  · have := h1.1
    simp only [addTrailingAxes, List.length_append, List.length_replicate] at this ⊢
    omega
  · rw [axisLen_addTrailingAxes, axisLen_append]
    by_cases hk : k < d.length
    · rw [if_pos hk, if_pos hk]; exact .inl rfl
    · rw [if_neg hk, if_neg hk]; exact h1.2 _
  · rw [addTrailingAxes_at]
    show m.get _ = m.get _
    congr 1
    funext k
    unfold restrict
    rw [axisLen_addLeadingAxes]
    show (if _ then 0 else joinC d.length e c (k + d.length)) = _
    rw [joinC_ge _ _ (by omega), Nat.add_sub_cancel]

theorem boundTerm_ok {m : Arr Bool} {T : Flt} {phiP phiQ u : Arr Flt} (hm : BroadcastsTo m.shape P)
    (hp : BroadcastsTo phiP.shape (P ++ d)) (hq : BroadcastsTo phiQ.shape (P ++ d)) (hu : PlatesDims u.shape P d) :
    ∃ y, boundTerm P m T d phiP phiQ u = .ok y ∧ BroadcastsTo y.shape P ∧ ∀ c, ValidIn P c → y.at c = sumOver d fun e =>
      (if u.at (joinC d.length e c) ≠ 0 then phiP.at (joinC d.length e c) - T * (if m.at c then phiQ.at (joinC d.length e c) else 0)
        else 0) * u.at (joinC d.length e c) := by
  obtain ⟨m1, m2⟩ := latent_mask (d := d) hm
  obtain ⟨q, a1, _, a2, a3⟩ := npWhere_flt m1 hq
  obtain ⟨x, b1, b2, b3⟩ := npSub_flt (Y := npScaleBy T q) hp a2
  obtain ⟨w, c1, c0, c2, c3⟩ := npWhere_flt (m := ⟨u.shape, fun i => decide (u.get i ≠ 0)⟩) (X := x) hu.broadcastsTo b2
  obtain ⟨z, d1, d0, d2, d3⟩ := npMul_common c2 hu.broadcastsTo
  obtain ⟨S, hS, _⟩ := hu
  obtain ⟨f1, f2⟩ := isBroadcast_full d0 d2 (by rw [hS]; simp) (fun k hk => by rw [hS, axisLen_append, if_pos hk])
  obtain ⟨y, e1, e2, e3⟩ := npSumLast_ok d2 f1 f2
  refine ⟨y, ?_, e2, fun c hc => ?_⟩
  · unfold boundTerm
    simp only [bind, Except.bind, a1, b1]
    unfold whereNonzero
    simp only [c1, d1, e1]
  rw [e3 c hc]
  refine sumOver_congr _ fun i _ => ?_
  rw [d3, c3, b3]
  have e : (npScaleBy T q).at (joinC d.length (coord i) c) = T * q.at (joinC d.length (coord i) c) := rfl
  rw [e, a3, m2]
  have e' : (⟨u.shape, fun i => decide (u.get i ≠ 0)⟩ : Arr Bool).at (joinC d.length (coord i) c)
      = decide (u.at (joinC d.length (coord i) c) ≠ 0) := rfl
  rw [e']
  simp only [decide_eq_true_eq]

/-- natural parameters from the parents, of the approximation, moments and variable axes -/
abbrev BoundPart := Arr Flt × Arr Flt × Arr Flt × List Nat

/-- the shapes fit the plates -/
def BoundPart.Fits (P : List Nat) (t : BoundPart) : Prop :=
  BroadcastsTo t.1.shape (P ++ t.2.2.2) ∧ BroadcastsTo t.2.1.shape (P ++ t.2.2.2) ∧ PlatesDims t.2.2.1.shape P t.2.2.2

theorem bound_fold {m : Arr Bool} {T : Flt} (hm : BroadcastsTo m.shape P) (ts : List BoundPart) (hts : ∀ t ∈ ts, t.Fits P) (L : Arr Flt)
    (hL : BroadcastsTo L.shape P) :
    ∃ y, ts.foldlM (fun L t => do npAdd L (← boundTerm P m T t.2.2.2 t.1 t.2.1 t.2.2.1)) L = Except.ok (ε := PyErr) y ∧
      BroadcastsTo y.shape P ∧ ∀ c, ValidIn P c → y.at c = L.at c + (ts.map fun t => sumOver t.2.2.2 fun e =>
        (if t.2.2.1.at (joinC t.2.2.2.length e c) ≠ 0 then t.1.at (joinC t.2.2.2.length e c)
          - T * (if m.at c then t.2.1.at (joinC t.2.2.2.length e c) else 0) else 0) * t.2.2.1.at (joinC t.2.2.2.length e c)).sum := by
  induction ts generalizing L with
  | nil => exact ⟨L, rfl, hL, fun c _ => by simp⟩
  | cons t ts ih =>
    obtain ⟨h1, h2, h3⟩ := hts t (by simp)
    obtain ⟨y, a1, a2, a3⟩ := boundTerm_ok (T := T) hm h1 h2 h3
    obtain ⟨L1, b1, _, b2, b3⟩ := npAdd_common hL a2
    obtain ⟨r, c1, c2, c3⟩ := ih (fun t ht => hts t (List.mem_cons_of_mem _ ht)) L1 b2
    refine ⟨r, ?_, c2, fun c hc => ?_⟩
    · rw [List.foldlM_cons]
      simp only [bind, Except.bind, a1, b1]
      exact c1
    · rw [c3 c hc, b3, a3 c hc, List.map_cons, List.sum_cons, add_assoc]

/-! ## The parts of a node -/

variable {N : ENode Flt} {s : EState Flt} {phiP : List (Arr Flt)} {gp : Arr Flt}

/-- The arrays of a node have plates that broadcast to those of the node. -/
structure BoundShapes (N : ENode Flt) (s : EState Flt) (phiP : List (Arr Flt)) (gp : Arr Flt) : Prop where
  phiP : FitsNode N phiP
  phi : FitsNode N s.phi
  u : FullNode N s.u
  bias : N.phiBias.length = N.dims.length
  prior : BroadcastsTo gp.shape N.plates
  f : BroadcastsTo s.f.shape N.plates
  g : BroadcastsTo s.g.shape N.plates
  observed : BroadcastsTo s.observed.shape N.plates
  mask : BroadcastsTo s.mask.shape N.plates

theorem zip_parts {A B U : List (Arr Flt)} {D : List (List Nat)} (hA : A.length = D.length) (hB : B.length = D.length)
    (hU : U.length = D.length) :
    D.zip (A.zip U) = (A.zip (B.zip (U.zip D))).map (fun t => (t.2.2.2, t.1, t.2.2.1)) ∧
      D.zip (B.zip U) = (A.zip (B.zip (U.zip D))).map (fun t => (t.2.2.2, t.2.1, t.2.2.1)) ∧
      D.zip (A.zip (B.zip U)) = (A.zip (B.zip (U.zip D))).map (fun t => (t.2.2.2, t.1, t.2.1, t.2.2.1)) := by
  induction D generalizing A B U with
  | nil =>
    obtain rfl := List.length_eq_zero_iff.1 hA
    exact ⟨rfl, rfl, rfl⟩
  | cons d D ih =>
    obtain ⟨a, A, rfl, _⟩ := List.length_eq_succ_iff.1 hA
    obtain ⟨b, B, rfl, _⟩ := List.length_eq_succ_iff.1 hB
    obtain ⟨u, U, rfl, _⟩ := List.length_eq_succ_iff.1 hU
    simp only [List.length_cons, Nat.add_right_cancel_iff] at hA hB hU
    obtain ⟨h1, h2, h3⟩ := ih hA hB hU
    simp only [List.zip_cons_cons, List.map_cons, h1, h2, h3, true_and]

theorem zip_fits (h : BoundShapes N s phiP gp) : ∀ t ∈ phiP.zip (s.phi.zip (s.u.zip N.dims)), BoundPart.Fits N.plates t := by
  intro t ht
  obtain ⟨i, hi⟩ := List.mem_iff_getElem?.1 ht
  rw [List.getElem?_zip_eq_some, List.getElem?_zip_eq_some, List.getElem?_zip_eq_some] at hi
  exact ⟨h.phiP.2 i _ _ hi.1 hi.2.2.2, h.phi.2 i _ _ hi.2.1 hi.2.2.2, h.u.2 i _ _ hi.2.2.1 hi.2.2.2⟩

theorem phi_no_bias (h : BoundShapes N s phiP gp) : (phiP.zip N.phiBias).map (·.1) = phiP := by
  have : phiP.length ≤ N.phiBias.length := by rw [h.bias, h.phiP.1]
  exact List.map_fst_zip this

theorem npAll_at {m : Arr Bool} (hm : BroadcastsTo m.shape P) (h : npAll m = true) {c : Nat → Nat} (hc : ValidIn P c) : m.at c = true := by
  unfold npAll at h
  rw [List.all_eq_true] at h
  obtain ⟨i, hi, e⟩ := exists_index_of_valid (restrict_valid hm.2 hc)
  show m.get _ = true
  rw [← e]
  exact h i hi

theorem not_at (m : Arr Bool) (c : Nat → Nat) : (npNot m).at c = !m.at c := rfl

theorem neg_fin (a : ℝ) : -Flt.fin a = Flt.fin (-a) := rfl

/-- the part of the lower bound of one moment -/
theorem part_value {c : Nat → Nat} {T : ℝ} {o : Bool} (t : BoundPart)
    (h : ∀ i ∈ indices t.2.2.2, ∃ x, t.2.2.1.at (joinC t.2.2.2.length (coord i) c) = .fin x ∧ (x ≠ 0 →
      IsFin (t.1.at (joinC t.2.2.2.length (coord i) c)) ∧ (o = false → IsFin (t.2.1.at (joinC t.2.2.2.length (coord i) c))))) :
    (sumOver t.2.2.2 fun e => (if t.2.2.1.at (joinC t.2.2.2.length e c) ≠ 0 then t.1.at (joinC t.2.2.2.length e c)
          - Flt.fin T * (if !o then t.2.1.at (joinC t.2.2.2.length e c) else 0) else 0) * t.2.2.1.at (joinC t.2.2.2.length e c))
      = .fin ((sumOver t.2.2.2 fun e => Flt.toReal (t.1.at (joinC t.2.2.2.length e c)) * Flt.toReal (t.2.2.1.at (joinC t.2.2.2.length e c)))
        + (if o then 0 else -T) * sumOver t.2.2.2 fun e =>
          Flt.toReal (t.2.1.at (joinC t.2.2.2.length e c)) * Flt.toReal (t.2.2.1.at (joinC t.2.2.2.length e c))) := by
  have e : ∀ f g : (Nat → Nat) → ℝ, ∀ a : ℝ, sumOver t.2.2.2 f + a * sumOver t.2.2.2 g = sumOver t.2.2.2 fun e => f e + a * g e := by
    intro f g a
    simp only [sumOver, List.sum_map_add, List.sum_map_mul_left]
  rw [e]
  refine sumOver_fin _ fun i hi => ?_
  obtain ⟨x, hx, hf⟩ := h i hi
  rw [hx]
  by_cases h0 : x = 0
  · subst h0
    have e0 : ¬ (Flt.fin 0 ≠ (0 : Flt)) := fun h => h rfl
    rw [if_neg e0]
    show Flt.fin (0 * 0) = _
    simp [Flt.toReal]
  · obtain ⟨⟨a, ha⟩, hq⟩ := hf h0
    have e0 : Flt.fin x ≠ (0 : Flt) := fun h => h0 (fin_inj.1 h)
    rw [if_pos e0, ha]
    cases o with
    | true =>
      simp only [Bool.not_true, Bool.false_eq_true, if_false, if_true]
      show Flt.fin ((a + -(T * 0)) * x) = _
      simp [Flt.toReal]
    | false =>
      obtain ⟨b, hb⟩ := hq rfl
      simp only [Bool.not_false, if_true, Bool.false_eq_true, if_false, hb]
      show Flt.fin ((a + -(T * b)) * x) = _
      rw [fin_inj]
      simp only [Flt.toReal]
      ring

theorem plateBounds_ok (h : BoundShapes N s phiP gp) {a : ℝ} (ha : a ≠ 0) (hs : s.annealing = .fin a) :
    ∃ L, plateBounds N s phiP gp = .ok L ∧ BroadcastsTo L.shape N.plates ∧ ∀ c, ValidIn N.plates c →
      PlateDefined N.dims gp s.f s.g phiP s.phi s.u s.observed c →
      L.at c = .fin (plateBound N.dims (1 / a) gp s.f s.g phiP s.phi s.u s.observed c) := by
  obtain ⟨z, hz⟩ : ∃ z : Arr Flt, z = if npAll s.observed then fltNum .nan else if Flt.fin (1 / a) = .fin 1 then npNeg s.g
    else npScaleBy (-Flt.fin (1 / a)) s.g := ⟨_, rfl⟩
  have hzs : BroadcastsTo z.shape N.plates := by
    rw [hz]
    split
    · exact ⟨Nat.zero_le _, fun k => .inl (by simp [fltNum, axisLen])⟩
    · split
      · exact h.g
      · exact h.g
  obtain ⟨w, a1, a2, a3⟩ := npWhere3_ok h.observed h.f hzs
  obtain ⟨L, b1, _, b2, b3⟩ := npAdd_common h.prior a2
  obtain ⟨y, c1, c2, c3⟩ := bound_fold (m := npNot s.observed) (T := .fin (1 / a)) h.observed _ (zip_fits h) L b2
  refine ⟨y, ?_, c2, fun c hc hd => ?_⟩
  · unfold plateBounds
    have e : pyRecip s.annealing = .ok (.fin (1 / a)) := by rw [hs]; simp only [pyRecip, if_neg ha]
    simp only [e, bind, Except.bind, ← hz, a1, b1, phi_no_bias h]
    exact c1
  obtain ⟨z1, z2, z3⟩ := zip_parts h.phiP.1 h.phi.1 h.u.1
  rw [c3 c hc, b3, a3]
  obtain ⟨r0, hr0⟩ := hd.prior
  have hw : (if s.observed.at c then s.f.at c else z.at c)
      = .fin (if s.observed.at c then Flt.toReal (s.f.at c) else -(1 / a) * Flt.toReal (s.g.at c)) := by
    cases ho : s.observed.at c with
    | true =>
      obtain ⟨r, hr⟩ := hd.value ho
      simp [hr, Flt.toReal]
    | false =>
      obtain ⟨r, hr⟩ := hd.cgf ho
      simp only [Bool.false_eq_true, if_false]
      rw [hz]
      split
      · rename_i hall
        rw [npAll_at h.observed hall hc] at ho
        cases ho
      · split
        · rename_i h1
          show -(s.g.at c) = _
          rw [hr, neg_fin, fin_inj.1 h1, fin_inj]
          simp [Flt.toReal]
        · show -Flt.fin (1 / a) * s.g.at c = _
          rw [hr]
          rfl
  rw [hw, hr0]
  have hparts := list_sum_fin (phiP.zip (s.phi.zip (s.u.zip N.dims))) (fun t ht => part_value (c := c) (T := 1 / a) (o := s.observed.at c) t
    (fun i hi => hd.moments (t.2.2.2, t.1, t.2.1, t.2.2.1) (by
      rw [z3]; exact List.mem_map.2 ⟨t, ht, rfl⟩) i hi))
  refine (congrArg (Flt.fin r0 + Flt.fin _ + ·) hparts).trans ?_
  show Flt.fin _ = Flt.fin _
  rw [fin_inj]
  unfold plateBound pairing
  rw [z1, z2, List.map_map, List.map_map, hr0]
  simp only [List.sum_map_add, List.sum_map_mul_left, Function.comp_def]
  cases s.observed.at c <;> simp [Flt.toReal] <;> ring

/-! ## The sum over the plates -/

theorem bound_swap {a b r : List Nat} (h : IsBroadcast [a, b] r) : IsBroadcast [b, a] r := by
  have e : ∀ x, x ∈ [b, a] ↔ x ∈ [a, b] := fun x => by simp [or_comm]
  refine ⟨fun x hx => h.rank_ge x ((e x).1 hx), ?_, fun k x hx => h.fits k x ((e x).1 hx), fun k => ?_⟩
  · rcases h.rank_le with h0 | ⟨x, hx, h1⟩
    · exact .inl h0
    · exact .inr ⟨x, (e x).2 hx, h1⟩
  · rcases h.attained k with h0 | ⟨x, hx, h1⟩
    · exact .inl h0
    · exact .inr ⟨x, (e x).2 hx, h1⟩

theorem bound_nil (S : List Nat) : IsBroadcast [[], S] S :=
  ⟨by simp, .inr ⟨S, by simp, rfl⟩, fun k x hx => by
    rcases List.mem_cons.1 hx with rfl | hx
    · left; simp [axisLen]
    · right; rw [List.mem_singleton.1 hx], fun _ => .inr ⟨S, by simp, rfl⟩⟩

/-- A sum over an array, times the number of plates that read each element, is the sum over the plates. -/
theorem multiplied_sum {m : Arr Bool} {L W : Arr Flt} (hP : ∀ n ∈ P, n ≠ 0) (hm : BroadcastsTo m.shape P) (hL : BroadcastsTo L.shape P)
    (hW : IsBroadcast [m.shape, L.shape] W.shape) (hat : ∀ c, W.at c = if m.at c then L.at c else 0) {v : (Nat → Nat) → ℝ}
    (hv : ∀ c, ValidIn P c → m.at c → L.at c = .fin (v c)) (k : ℝ) :
    ∃ r, broadcastingMultiplier P [L.shape, m.shape] = .ok r ∧
      sumOver W.shape W.get * .fin r * .fin k = .fin (k * sumOver P fun c => if m.at c then v c else 0) := by
  obtain ⟨M, hM⟩ : ∃ M : Arr ℝ, M = ⟨m.shape, fun c => if m.get c then 1 else 0⟩ := ⟨_, rfl⟩
  obtain ⟨L', hL'⟩ : ∃ L' : Arr ℝ, L' = ⟨L.shape, fun c => Flt.toReal (L.get c)⟩ := ⟨_, rfl⟩
  have hMat : ∀ c, M.at c = if m.at c then 1 else 0 := fun c => by rw [hM]; rfl
  have hLat : ∀ c, L'.at c = Flt.toReal (L.at c) := fun c => by rw [hL']; rfl
  have hsh : [L', M].map (·.shape) = [L.shape, m.shape] := by rw [hL', hM]; rfl
  have hJ : IsBroadcast ([L', M].map (·.shape)) W.shape := by rw [hsh]; exact bound_swap hW
  obtain ⟨r, hr⟩ : ∃ r, broadcastingMultiplier P [L.shape, m.shape] = .ok r := ⟨_, broadcastingMultiplier_ok (by
    intro a ha
    simp only [List.mem_cons, List.not_mem_nil, or_false] at ha
    rcases ha with rfl | rfl
    · exact hL
    · exact hm)⟩
  refine ⟨r, hr, ?_⟩
  have key := C04_multiplier_sum P W.shape [L', M] r (by rw [hsh]; exact hr) hJ
  simp only [List.map_cons, List.map_nil, List.prod_cons, List.prod_nil, mul_one, hMat, hLat] at key
  have hWP : BroadcastsTo W.shape P := by
    obtain ⟨B, hB, hb⟩ := isBroadcast_of_common hm hL
    rwa [isBroadcast_unique hW hB]
  have hsum : sumOver W.shape W.get = .fin (sumOver W.shape fun c => Flt.toReal (L.at c) * if m.at c then 1 else 0) := by
    refine sumOver_fin _ fun i hi => ?_
    have hvi := coord_valid hi
    rw [← Arr.at_of_valid W hvi, hat]
    have hvP : ValidIn P (coord i) := fun j => by
      have h1 := hvi j
      have h2 := hWP.2 j
      have h3 : axisLen P j ≠ 0 := by
        unfold axisLen
        cases hj : P.reverse[j]? with
        | none => simp
        | some n => exact hP n (List.mem_reverse.1 (List.mem_of_getElem? hj))
      omega
    by_cases hmi : m.at (coord i) = true
    · rw [if_pos hmi, if_pos hmi, hv _ hvP hmi, mul_one]; rfl
    · rw [if_neg hmi, if_neg hmi, mul_zero]; rfl
  rw [hsum]
  show Flt.fin _ = Flt.fin _
  rw [fin_inj, mul_comm (sumOver _ _) (r : ℝ), key, mul_comm]
  congr 1
  refine sumOver_congr _ fun i hi => ?_
  by_cases hmi : m.at (coord i) = true
  · rw [if_pos hmi, if_pos hmi, hv _ (coord_valid hi) hmi, mul_one]; rfl
  · rw [if_neg hmi, if_neg hmi, mul_zero]

/-- **C83** `lower_bound_contribution` is the sum, over the plates in the mask, of what each plate adds to the lower bound, times the
plate multipliers: whatever the shapes of the arrays, however plates are shared, with any mixture of observed and latent plates and any
annealing, and although the arrays hold NaN and infinities where they do not matter. -/
theorem C83_lower_bound (h : BoundShapes N s phiP gp) {a : ℝ} (ha : a ≠ 0) (hs : s.annealing = .fin a) (hP : ∀ n ∈ N.plates, n ≠ 0)
    (hd : ∀ c, ValidIn N.plates c → s.mask.at c → PlateDefined N.dims gp s.f s.g phiP s.phi s.u s.observed c) (mult : List ℝ) :
    lowerBoundContribution N mult s phiP gp true = .ok (.fin (mult.prod * sumOver N.plates fun c =>
      if s.mask.at c then plateBound N.dims (1 / a) gp s.f s.g phiP s.phi s.u s.observed c else 0)) := by
  obtain ⟨L, a1, a2, a3⟩ := plateBounds_ok h ha hs
  obtain ⟨W, b1, b2, _, b4⟩ := npWhere_flt h.mask a2
  obtain ⟨r, c1, c2⟩ := multiplied_sum hP h.mask a2 b2 b4 (fun c hc hm => a3 c hc (hd c hc hm)) mult.prod
  unfold lowerBoundContribution
  simp only [a1, b1, c1, bind, Except.bind, pure, Except.pure, if_true, c2]

/-- **C83** With `ignore_masked=False` it is the sum over all plates. -/
theorem C83_lower_bound_all (h : BoundShapes N s phiP gp) {a : ℝ} (ha : a ≠ 0) (hs : s.annealing = .fin a) (hP : ∀ n ∈ N.plates, n ≠ 0)
    (hd : ∀ c, ValidIn N.plates c → PlateDefined N.dims gp s.f s.g phiP s.phi s.u s.observed c) (mult : List ℝ) :
    lowerBoundContribution N mult s phiP gp false = .ok (.fin (mult.prod * sumOver N.plates fun c =>
      plateBound N.dims (1 / a) gp s.f s.g phiP s.phi s.u s.observed c)) := by
  obtain ⟨L, a1, a2, a3⟩ := plateBounds_ok h ha hs
  have hm : BroadcastsTo (⟨[], fun _ => true⟩ : Arr Bool).shape N.plates := ⟨Nat.zero_le _, fun k => .inl (by simp [axisLen])⟩
  obtain ⟨r, c1, c2⟩ := multiplied_sum (W := L) (v := fun c => plateBound N.dims (1 / a) gp s.f s.g phiP s.phi s.u s.observed c) hP hm a2
    (bound_nil _) (fun c => rfl) (fun c hc _ => a3 c hc (hd c hc)) mult.prod
  have e : broadcastingMultiplier N.plates [L.shape] = .ok r := by
    rw [← c1, broadcastingMultiplier_ok (by simpa using a2), broadcastingMultiplier_ok (by simpa using ⟨a2, hm⟩)]
    simp [axisLen]
  unfold lowerBoundContribution
  simp only [a1, e, bind, Except.bind, pure, Except.pure, Bool.false_eq_true, if_false, c2]
  rfl

/-- **C83** An annealing of zero raises `ZeroDivisionError`. -/
theorem C83_annealing_raises (hs : s.annealing = .fin 0) (mult : List ℝ) (b : Bool) :
    lowerBoundContribution N mult s phiP gp b = .error .zeroDivisionError := by
  unfold lowerBoundContribution plateBounds
  simp only [hs, pyRecip, if_true, bind, Except.bind]

/-! ## `logpdf` -/

theorem logpdf_sum (ts : List (Arr Flt × Arr Flt × List Nat))
    (hts : ∀ t ∈ ts, BroadcastsTo t.1.shape (P ++ t.2.2) ∧ PlatesDims t.2.1.shape P t.2.2) (Z : Arr Flt) (hZ : BroadcastsTo Z.shape P) :
    ∃ y, ts.foldlM (fun Z t => do
        let y ← npMul t.1 t.2.1
        npAdd Z (← npSumLast y t.2.2.length)) Z = Except.ok (ε := PyErr) y ∧
      BroadcastsTo y.shape P ∧ ∀ c, ValidIn P c → y.at c = Z.at c + (ts.map fun t => sumOver t.2.2 fun e =>
        t.1.at (joinC t.2.2.length e c) * t.2.1.at (joinC t.2.2.length e c)).sum := by
  induction ts generalizing Z with
  | nil => exact ⟨Z, rfl, hZ, fun c _ => by simp⟩
  | cons t ts ih =>
    obtain ⟨h1, h2⟩ := hts t (by simp)
    obtain ⟨z, d1, d0, d2, d3⟩ := npMul_common h1 h2.broadcastsTo
    obtain ⟨S, hS, _⟩ := h2
    obtain ⟨f1, f2⟩ := isBroadcast_full d0 d2 (by rw [hS]; simp) (fun k hk => by rw [hS, axisLen_append, if_pos hk])
    obtain ⟨y, e1, e2, e3⟩ := npSumLast_ok d2 f1 f2
    obtain ⟨L1, b1, _, b2, b3⟩ := npAdd_common hZ e2
    obtain ⟨r, c1, c2, c3⟩ := ih (fun t ht => hts t (List.mem_cons_of_mem _ ht)) L1 b2
    refine ⟨r, ?_, c2, fun c hc => ?_⟩
    · rw [List.foldlM_cons]
      simp only [bind, Except.bind, d1, e1, b1]
      exact c1
    · rw [c3 c hc, b3, e3 c hc, List.map_cons, List.sum_cons, add_assoc]
      simp only [d3]

/-- **C83** `logpdf` is `⟨φ, u⟩ + g + f` on every plate, if all parameters are finite.  The plates `P` may be those of the node or have
further axes for several values. -/
theorem C83_logpdf_partial {u : List (Arr Flt)} {f : Arr Flt} (hphi : s.phi.length = N.dims.length) (hu : u.length = N.dims.length)
    (hts : ∀ t ∈ s.phi.zip (u.zip N.dims), BroadcastsTo t.1.shape (P ++ t.2.2) ∧ PlatesDims t.2.1.shape P t.2.2)
    (hg : BroadcastsTo s.g.shape P) (hf : BroadcastsTo f.shape P) :
    ∃ y, nodeLogpdf N s (.ok (u, f)) false = .ok y ∧ BroadcastsTo y.shape P ∧ ∀ c, ValidIn P c → IsFin (s.g.at c) → IsFin (f.at c) →
      (∀ t ∈ s.phi.zip (u.zip N.dims), ∀ i ∈ indices t.2.2,
        IsFin (t.1.at (joinC t.2.2.length (coord i) c)) ∧ IsFin (t.2.1.at (joinC t.2.2.length (coord i) c))) →
      y.at c = .fin (pairing c (N.dims.zip (s.phi.zip u)) + Flt.toReal (s.g.at c) + Flt.toReal (f.at c)) := by
  obtain ⟨Z, a1, a2, a3⟩ := logpdf_sum _ hts (fltNum 0) ⟨Nat.zero_le _, fun k => .inl (by simp [fltNum, axisLen])⟩
  obtain ⟨gf, b1, _, b2, b3⟩ := npAdd_common hg hf
  obtain ⟨y, c1, _, c2, c3⟩ := npAdd_common b2 a2
  refine ⟨y, ?_, c2, fun c hc ⟨r, hr⟩ ⟨r', hr'⟩ hfin => ?_⟩
  · unfold nodeLogpdf
    simp only [Bool.false_eq_true, if_false, bind, Except.bind, pure, Except.pure]
    have a1' := a1
    simp only [bind, Except.bind] at a1'
    simp only [a1', b1, c1]
  rw [c3, b3, a3 c hc, hr, hr']
  have e : N.dims.zip (s.phi.zip u) = (s.phi.zip (u.zip N.dims)).map fun t => (t.2.2, t.1, t.2.1) := by
    clear a1 a2 a3 hts hfin
    generalize N.dims = D at hphi hu ⊢
    generalize s.phi = A at hphi ⊢
    induction D generalizing A u with
    | nil => obtain rfl := List.length_eq_zero_iff.1 hphi; rfl
    | cons d D ih =>
      obtain ⟨a, A, rfl, _⟩ := List.length_eq_succ_iff.1 hphi
      obtain ⟨v, U, rfl, _⟩ := List.length_eq_succ_iff.1 hu
      simp only [List.length_cons, Nat.add_right_cancel_iff] at hphi hu
      simp only [List.zip_cons_cons, List.map_cons, ih hu _ hphi]
  have hsum := list_sum_fin (s.phi.zip (u.zip N.dims)) (fun t ht => sumOver_fin t.2.2
    (f := fun e => t.1.at (joinC t.2.2.length e c) * t.2.1.at (joinC t.2.2.length e c))
    (g := fun e => Flt.toReal (t.1.at (joinC t.2.2.length e c)) * Flt.toReal (t.2.1.at (joinC t.2.2.length e c))) fun i hi => by
      obtain ⟨⟨x, hx⟩, ⟨x', hx'⟩⟩ := hfin t ht i hi
      rw [hx, hx']
      rfl)
  rw [hsum]
  show Flt.fin _ = Flt.fin _
  rw [fin_inj]
  unfold pairing
  rw [e, List.map_map]
  show r + r' + (0 + _) = _ + r + r'
  simp only [Function.comp_def, zero_add]
  ring

/-- **C83** A mask is not implemented. -/
theorem C83_logpdf_raises (fixed : Except PyErr (List (Arr Flt) × Arr Flt)) : nodeLogpdf N s fixed true = .error .notImplemented := rfl

end

/-! ## Examples -/

/-- A categorical variable of two categories with two plates.  Plate 0 is observed to be of category 0, the other category is impossible
there; nothing has been computed for the approximation on it. -/
noncomputable def boundNode : ENode Flt := ⟨[2], [[2]], [fltNum 0], fun _ _ => .error .valueError⟩

noncomputable def boundPrior : List (Arr Flt) :=
  [⟨[2, 2], fun c => if c 1 = 0 then (if c 0 = 0 then .fin 0 else .negInf) else .fin (-1)⟩]

noncomputable def boundState : EState Flt where
  u := [⟨[2, 2], fun c => if c 1 = 0 then (if c 0 = 0 then .fin 1 else .fin 0) else .fin (1 / 2)⟩]
  phi := [⟨[2, 2], fun c => if c 1 = 0 then .nan else .fin (-3)⟩]
  g := ⟨[2], fun c => if c 0 = 0 then .nan else .fin 5⟩
  f := ⟨[2], fun c => if c 0 = 0 then .fin 7 else .nan⟩
  observed := ⟨[2], fun c => decide (c 0 = 0)⟩
  mask := ⟨[], fun _ => true⟩
  annealing := .fin 2

theorem flt_node_one {d S : List Nat} {N : ENode Flt} {x : Arr Flt} (hd : N.dims = [d]) (hx : x.shape = S ++ d)
    (h : BroadcastsTo S N.plates) : FullNode N [x] := by
  refine ⟨by rw [hd]; rfl, fun i y d' hy hd' => ?_⟩
  rw [hd] at hd'
  rcases i with _ | i
  · cases hy; cases hd'; exact ⟨S, hx, h⟩
  · cases i <;> cases hy

theorem bound_shapes : BoundShapes boundNode boundState boundPrior (fltNum (.fin 4)) := by
  have h : ∀ x : Arr Flt, x.shape = [2, 2] → FullNode boundNode [x] := fun x hx =>
    flt_node_one (d := [2]) (S := [2]) rfl hx (BroadcastsTo.refl _)
  have hn : BroadcastsTo [] [2] := ⟨by decide, fun k => .inl (by simp [axisLen])⟩
  exact ⟨(h _ rfl).fits, (h _ rfl).fits, h _ rfl, rfl, hn, BroadcastsTo.refl _, BroadcastsTo.refl _, BroadcastsTo.refl _, hn⟩

theorem bound_defined (c : Nat → Nat) (hc : ValidIn [2] c) : PlateDefined boundNode.dims (fltNum (.fin 4)) boundState.f boundState.g
    boundPrior boundState.phi boundState.u boundState.observed c := by
  have h0 : c 0 < 2 := hc 0
  have ob : boundState.observed.at c = decide (c 0 = 0) := rfl
  have fa : boundState.f.at c = if c 0 = 0 then .fin 7 else .nan := rfl
  have ga : boundState.g.at c = if c 0 = 0 then .nan else .fin 5 := rfl
  refine ⟨⟨4, rfl⟩, fun h => ?_, fun h => ?_, fun t ht i hi => ?_⟩
  · rw [ob, decide_eq_true_eq] at h
    exact ⟨7, by rw [fa, if_pos h]⟩
  · rw [ob, decide_eq_false_iff_not] at h
    exact ⟨5, by rw [ga, if_neg h]⟩
  · simp only [boundNode, boundPrior, boundState, List.zip_cons_cons, List.zip_nil_right, List.mem_singleton] at ht
    subst ht
    have hi0 : coord i 0 < 2 := coord_valid hi 0
    by_cases h : c 0 = 0
    · by_cases h' : coord i 0 = 0
      · exact ⟨1, by simp [Arr.at, restrict, axisLen, joinC, h, h'], fun _ => ⟨⟨0, by simp [Arr.at, restrict, axisLen, joinC, h, h']⟩,
          fun hh => by rw [ob] at hh; simp [h] at hh⟩⟩
      · exact ⟨0, by simp [Arr.at, restrict, axisLen, joinC, h, h'], fun hh => absurd rfl hh⟩
    · exact ⟨1 / 2, by simp [Arr.at, restrict, axisLen, joinC, h], fun _ => ⟨⟨-1, by simp [Arr.at, restrict, axisLen, joinC, h]⟩,
        fun _ => ⟨-3, by simp [Arr.at, restrict, axisLen, joinC, h]⟩⟩⟩

/-- The first plate adds `0 + 4 + 7`, the second `-1 + 4 - (-3 + 5) / 2`; each stands for three. -/
example : lowerBoundContribution boundNode [3] boundState boundPrior (fltNum (.fin 4)) true = .ok (.fin (3 * (11 + 2))) := by
  rw [C83_lower_bound bound_shapes (a := 2) (by norm_num) rfl (by simp [boundNode]) (fun c hc _ => bound_defined c hc)]
  congr 2
  simp [boundNode, boundState, boundPrior, plateBound, pairing, sumOver, indices, coord, Arr.at, restrict, axisLen, joinC, List.range_succ,
    Flt.toReal, fltNum]
  norm_num

example : ∃ x, lowerBoundContribution boundNode [3] boundState boundPrior (fltNum (.fin 4)) false = .ok (.fin x) :=
  ⟨_, C83_lower_bound_all bound_shapes (a := 2) (by norm_num) rfl (by simp [boundNode]) (fun c hc => bound_defined c hc) [3]⟩

example : lowerBoundContribution boundNode [3] { boundState with annealing := .fin 0 } boundPrior (fltNum (.fin 4)) true
    = .error .zeroDivisionError := C83_annealing_raises rfl [3] true

/-- The state of a categorical node without plates whose second category has probability zero. -/
noncomputable def pointState (b : Flt) : EState Flt where
  u := [⟨[2], fun c => if c 0 = 0 then .fin 1 else .fin 0⟩]
  phi := [⟨[2], fun c => if c 0 = 0 then .fin 0 else b⟩]
  g := fltNum 0
  f := fltNum .nan
  observed := ⟨[], fun _ => false⟩
  mask := ⟨[], fun _ => true⟩
  annealing := .fin 1

noncomputable def pointNode : ENode Flt := ⟨[], [[2]], [fltNum 0], fun _ _ => .error .valueError⟩

theorem point_fits (b : Flt) : ∀ t ∈ (pointState b).phi.zip ((pointState b).u.zip pointNode.dims),
    BroadcastsTo t.1.shape ([] ++ t.2.2) ∧ PlatesDims t.2.1.shape [] t.2.2 := by
  intro t ht
  simp only [pointNode, pointState, List.zip_cons_cons, List.zip_nil_right, List.mem_singleton] at ht
  subst ht
  exact ⟨BroadcastsTo.refl _, [], rfl, BroadcastsTo.refl _⟩

/-- `logpdf` of category 0 if the parameter of category 1 is `b`. -/
theorem point_logpdf (b : Flt) : ∃ y, nodeLogpdf pointNode (pointState b) (.ok ((pointState b).u, fltNum 0)) false = .ok y ∧
    y.at (fun _ => 0) = b * .fin 0 := by
  obtain ⟨Z, a1, a2, a3⟩ := logpdf_sum (P := []) _ (point_fits b) (fltNum 0) (BroadcastsTo.refl _)
  obtain ⟨gf, b1, _, b2, b3⟩ := npAdd_common (X := (pointState b).g) (Y := fltNum 0) (B := []) (BroadcastsTo.refl _) (BroadcastsTo.refl _)
  obtain ⟨y, c1, _, c2, c3⟩ := npAdd_common b2 a2
  refine ⟨y, ?_, ?_⟩
  · unfold nodeLogpdf
    simp only [Bool.false_eq_true, if_false, bind, Except.bind, pure, Except.pure]
    have a1' := a1
    simp only [bind, Except.bind] at a1'
    simp only [a1', b1, c1]
  · rw [c3, b3, a3 _ (fun k => by simp [axisLen])]
    have e : ∀ x : Flt, (0 : Flt) + 0 + (0 + (.fin (0 * 1) + x)) = x := by
      intro x
      rw [zero_mul]
      show (0 : Flt) + 0 + (0 + (0 + x)) = x
      rw [zero_add, zero_add, zero_add, zero_add]
    refine Eq.trans ?_ (e (b * .fin 0))
    simp [pointState, pointNode, sumOver, indices, coord, Arr.at, restrict, axisLen, joinC, List.range_succ, fltNum]
    have e1 : Flt.fin 0 * Flt.fin 1 = Flt.fin (0 * 1) := rfl
    rw [e1, zero_mul]

/-- **C83** The missing part of `C83_logpdf_partial`: a parameter `-∞` of an impossible category makes the log density of the other
category NaN, although it contributes nothing (`lower_bound_contribution` and `compute_logpdf` take care of this, `logpdf` does not). -/
theorem C83_logpdf_refuted : ∃ y, nodeLogpdf pointNode (pointState .negInf) (.ok ((pointState .negInf).u, fltNum 0)) false = .ok y ∧
    y.at (fun _ => 0) = .nan := by
  obtain ⟨y, h1, h2⟩ := point_logpdf .negInf
  refine ⟨y, h1, h2.trans ?_⟩
  show Flt.mulInf 0 false = .nan
  simp [Flt.mulInf]

example : ∃ y, nodeLogpdf pointNode (pointState (.fin (-5))) (.ok ((pointState (.fin (-5))).u, fltNum 0)) false = .ok y ∧
    BroadcastsTo y.shape [] := by
  obtain ⟨y, h1, h2, _⟩ := C83_logpdf_partial (P := []) (N := pointNode) (s := pointState (.fin (-5))) rfl rfl (point_fits _)
    (BroadcastsTo.refl _) (f := fltNum 0) (BroadcastsTo.refl _)
  exact ⟨y, h1, h2⟩

end Verif
