import Verif.Lemmas.Arr
import Verif.Model.SumMultiply

/-! # Helper lemmas: `broadcasting_multiplier`, `axes_to_collapse`, `np.sum` -/

namespace Verif
open Spec Function

theorem isShapeSubset_ok_decide (sub full : List Nat) [Decidable (BroadcastsTo sub full)] :
    isShapeSubset sub full = .ok (decide (BroadcastsTo sub full)) := by
  obtain ⟨b, hb, h⟩ := isShapeSubset_eq sub full
  rw [hb]
  congr 1
  cases b
  · symm; rw [decide_eq_false_iff_not]; intro h'; simpa using h.2 h'
  · symm; rw [decide_eq_true_iff]; exact h.1 rfl

theorem isBroadcast_pair_of_broadcastsTo {a p : List Nat} (h : BroadcastsTo a p) :
    IsBroadcast [p, a] p := by
  refine ⟨by simpa using h.1, .inr ⟨p, by simp, rfl⟩, ?_, fun k => .inr ⟨p, by simp, rfl⟩⟩
  intro k s hs
  simp at hs
  rcases hs with rfl | rfl
  · exact .inr rfl
  · exact h.2 k

theorem forM_ok {α : Type _} (l : List α) (f : α → Except PyErr PUnit) (h : ∀ a ∈ l, f a = .ok ⟨⟩) :
    l.forM f = .ok ⟨⟩ := by
  induction l with
  | nil => rfl
  | cons a l ih =>
    show (f a >>= fun _ => l.forM f) = _
    rw [h a (by simp)]
    exact ih (fun b hb => h b (by simp [hb]))

theorem forM_error {α : Type _} (l : List α) (f : α → Except PyErr PUnit) {e : PyErr}
    (h : l.forM f = .error e) : ∃ a ∈ l, f a = .error e := by
  induction l with
  | nil => cases h
  | cons a l ih =>
    change (f a >>= fun _ => l.forM f) = _ at h
    cases ha : f a with
    | error e' => rw [ha] at h; cases h; exact ⟨a, by simp, ha⟩
    | ok u =>
      rw [ha] at h
      obtain ⟨b, hb, h2⟩ := ih h
      exact ⟨b, by simp [hb], h2⟩

theorem forM_error_of {α : Type _} (l : List α) (f : α → Except PyErr PUnit) {e : PyErr}
    (he : ∀ a ∈ l, ∀ e', f a = .error e' → e' = e) (h : ∃ a ∈ l, ∃ e', f a = .error e') :
    l.forM f = .error e := by
  cases h1 : l.forM f with
  | error e' => obtain ⟨a, ha, h2⟩ := forM_error l f h1; rw [he a ha e' h2]
  | ok u =>
    exfalso
    obtain ⟨a, ha, e', hf⟩ := h
    induction l with
    | nil => simp at ha
    | cons b l ih =>
      change (f b >>= fun _ => l.forM f) = _ at h1
      cases hb : f b with
      | error e'' => rw [hb] at h1; cases h1
      | ok v =>
        rw [hb] at h1
        rcases List.mem_cons.1 ha with rfl | ha
        · rw [hb] at hf; cases hf
        · exact ih (fun c hc => he c (by simp [hc])) h1 ha

theorem bmultCheck_ok {plates : List Nat} {args : List (List Nat)}
    (h : ∀ a ∈ args, BroadcastsTo a plates) : bmultCheck plates args = .ok () := by
  unfold bmultCheck
  rw [forM_ok, forM_ok]
  · rfl
  · intro a ha
    have := (isShapeSubset_eq a plates)
    obtain ⟨b, hb, hiff⟩ := this
    have : b = true := hiff.2 (h a ha)
    subst this
    simp [hb, bind, Except.bind, pure, Except.pure]
  · intro a ha
    rw [(broadcastedShape_ok _ _).2 (isBroadcast_pair_of_broadcastsTo (h a ha))]
    rfl

theorem bmultCheck_error {plates : List Nat} {args : List (List Nat)}
    (h : ¬ ∀ a ∈ args, BroadcastsTo a plates) : bmultCheck plates args = .error .valueError := by
  unfold bmultCheck
  cases h1 : args.forM (fun a => do let _ ← broadcastedShape [plates, a]) with
  | error e =>
    obtain ⟨a, _, h2⟩ := forM_error _ _ h1
    cases h3 : broadcastedShape [plates, a] with
    | ok r => rw [h3] at h2; cases h2
    | error e' =>
      rw [h3] at h2
      have := broadcastedShape_error h3
      cases h2
      rw [this]; rfl
  | ok u =>
    show args.forM _ = _
    apply forM_error_of
    · intro a _ e' h2
      obtain ⟨b, hb, hiff⟩ := isShapeSubset_eq a plates
      rw [hb] at h2
      cases b <;> simp [bind, Except.bind, pure, Except.pure, throw, throwThe,
        MonadExceptOf.throw] at h2
      exact h2.symm
    · have : ∃ a ∈ args, ¬ BroadcastsTo a plates := by
        by_contra hc
        apply h
        intro a ha
        by_contra h3
        exact hc ⟨a, ha, h3⟩
      obtain ⟨a, ha, h3⟩ := this
      obtain ⟨b, hb, hiff⟩ := isShapeSubset_eq a plates
      refine ⟨a, ha, .valueError, ?_⟩
      cases b
      · simp [hb, bind, Except.bind, throw, throwThe, MonadExceptOf.throw]
      · exact absurd (hiff.1 rfl) h3

theorem bmultAxis_ok (k : Nat) (mult : Bool) (args : List (List Nat)) :
    bmultAxis (k + 1) mult args = .ok (mult && decide (∀ a ∈ args, axisLen a k = 1)) := by
  induction args generalizing mult with
  | nil => simp [bmultAxis]
  | cons a as ih =>
    unfold bmultAxis
    split
    · rename_i h
      rw [ih]
      have : axisLen a k = 1 := axisLen_of_ge (by omega)
      simp [this]
    · rename_i h
      rw [negIdx_eq (by omega)]
      simp only [bind, Except.bind]
      by_cases h1 : axisLen a k = 1
      · simp [h1, ih]
      · simp [h1, ih]

theorem foldlM_range_prod (n : Nat) (g : Nat → Except PyErr Bool) (v : Nat → Except PyErr Nat)
    (b : Nat → Bool) (w : Nat → Nat) (hg : ∀ p < n, g p = .ok (b p)) (hv : ∀ p < n, v p = .ok (w p))
    (r0 : Nat) :
    (List.range n).foldlM (fun r p => do
      let m ← g p
      if m then return r * (← v p) else return r) r0
      = Except.ok (r0 * (((List.range n).filter b).map w).prod) := by
  induction n with
  | zero => simp [pure, Except.pure]
  | succ n ih =>
    rw [List.range_succ, List.foldlM_append,
      ih (fun p hp => hg p (by omega)) (fun p hp => hv p (by omega))]
    simp only [List.foldlM_cons, List.foldlM_nil, bind, Except.bind, pure, Except.pure,
      hg n (by omega), hv n (by omega)]
    cases hb : b n <;> simp [hb, mul_assoc]

/-- Right positions of the axes of `s` selected by `p`, in descending order. -/
def descSel (n : Nat) (p : Nat → Bool) : List Nat :=
  ((List.range n).filter (fun q => p (n - 1 - q))).map (fun q => n - 1 - q)

theorem descSel_perm (n : Nat) (p : Nat → Bool) :
    (descSel n p).Perm ((List.range n).filter p) := by
  rw [List.perm_ext_iff_of_nodup]
  · intro k
    simp only [descSel, List.mem_map, List.mem_filter, List.mem_range]
    constructor
    · rintro ⟨q, ⟨hq, hp⟩, rfl⟩; exact ⟨by omega, hp⟩
    · rintro ⟨hk, hp⟩
      refine ⟨n - 1 - k, ⟨by omega, ?_⟩, by omega⟩
      rwa [show n - 1 - (n - 1 - k) = k by omega]
  · unfold descSel
    apply List.Nodup.map_on
    · intro a ha b hb h
      simp at ha hb
      omega
    · exact List.nodup_range.filter _
  · exact List.nodup_range.filter _

theorem mem_descSel {n : Nat} {p : Nat → Bool} {k : Nat} :
    k ∈ descSel n p ↔ k < n ∧ p k = true := by
  rw [(descSel_perm n p).mem_iff]; simp

theorem nodup_descSel (n : Nat) (p : Nat → Bool) : (descSel n p).Nodup :=
  (descSel_perm n p).nodup_iff.2 (List.nodup_range.filter _)

theorem broadcastingMultiplier_ok {plates : List Nat} {args : List (List Nat)}
    (h : ∀ a ∈ args, BroadcastsTo a plates) :
    broadcastingMultiplier plates args = .ok
      (((selAxes plates (fun k => decide (∀ a ∈ args, axisLen a k = 1))).map (·.2)).prod) := by
  unfold broadcastingMultiplier
  rw [bmultCheck_ok h]
  show List.foldlM _ 1 _ = _
  rw [foldlM_range_prod plates.length (fun p => bmultAxis (plates.length - p) true args)
    (fun p => negIdx plates (plates.length - p))
    (fun p => decide (∀ a ∈ args, axisLen a (plates.length - 1 - p) = 1))
    (fun p => axisLen plates (plates.length - 1 - p))]
  · rw [one_mul]
    congr 1
    unfold selAxes
    rw [List.map_map]
    have := (descSel_perm plates.length
      (fun k => decide (∀ a ∈ args, axisLen a k = 1))).map (axisLen plates)
    have h2 := this.prod_eq
    rw [descSel, List.map_map] at h2
    exact h2
  · intro p hp
    rw [show plates.length - p = (plates.length - 1 - p) + 1 by omega, bmultAxis_ok]
    simp
  · intro p hp
    rw [show plates.length - p = (plates.length - 1 - p) + 1 by omega, negIdx_eq (by omega)]

theorem broadcastingMultiplier_error {plates : List Nat} {args : List (List Nat)}
    (h : ¬ ∀ a ∈ args, BroadcastsTo a plates) :
    broadcastingMultiplier plates args = .error .valueError := by
  unfold broadcastingMultiplier
  rw [bmultCheck_error h]
  rfl

/-! ## `axes_to_collapse` -/

/-- On every axis where `x` is not one, `t` is one or equal to `x`. -/
def CollapsesTo (x t : List Nat) : Prop :=
  ∀ k, axisLen x k = 1 ∨ axisLen t k = 1 ∨ axisLen t k = axisLen x k

theorem axisToCollapse_eq {x t : List Nat} {k : Nat} (hk : k < x.length) :
    axisToCollapse x t (k + 1) =
      if axisLen x k ≠ 1 then
        if axisLen t k = 1 then .ok true
        else if axisLen t k ≠ axisLen x k then .error .exception else .ok false
      else .ok false := by
  unfold axisToCollapse
  rw [negIdx_eq hk]
  simp only [bind, Except.bind]
  by_cases h1 : axisLen x k ≠ 1
  · rw [if_pos h1, if_pos h1]
    by_cases h2 : k + 1 > t.length
    · rw [if_pos h2, axisLen_of_ge (s := t) (by omega)]; rfl
    · rw [if_neg h2, negIdx_eq (by omega)]
      rfl
  · rw [if_neg h1, if_neg h1]; rfl

theorem foldlM_range_append (n : Nat) (g : Nat → Except PyErr Bool)
    (b : Nat → Bool) (w : Nat → Nat) (hg : ∀ p < n, g p = .ok (b p)) (r0 : List Nat) :
    (List.range n).foldlM (fun s p => do
      if ← g p then return s ++ [w p] else return s) r0
      = Except.ok (r0 ++ ((List.range n).filter b).map w) := by
  induction n with
  | zero => simp [pure, Except.pure]
  | succ n ih =>
    rw [List.range_succ, List.foldlM_append, ih (fun p hp => hg p (by omega))]
    simp only [List.foldlM_cons, List.foldlM_nil, bind, Except.bind, pure, Except.pure,
      hg n (by omega)]
    cases hb : b n <;> simp [hb]

theorem foldlM_error_of {β σ : Type} (l : List β) (f : σ → β → Except PyErr σ) (e : PyErr)
    (he : ∀ s b e', b ∈ l → f s b = .error e' → e' = e)
    (h : ∃ b ∈ l, ∀ s, ∃ e', f s b = .error e') (s : σ) : l.foldlM f s = .error e := by
  induction l generalizing s with
  | nil => obtain ⟨b, hb, _⟩ := h; simp at hb
  | cons a l ih =>
    rw [List.foldlM_cons]
    cases ha : f s a with
    | error e' => rw [he s a e' (by simp) ha]; rfl
    | ok s' =>
      show l.foldlM f s' = _
      apply ih (fun s b e' hb => he s b e' (by simp [hb]))
      obtain ⟨b, hb, hf⟩ := h
      rcases List.mem_cons.1 hb with rfl | hb
      · obtain ⟨e', h2⟩ := hf s; rw [ha] at h2; cases h2
      · exact ⟨b, hb, hf⟩

/-- The axes collapsed by `axes_to_collapse`, as right positions. -/
def collapsePred (x t : List Nat) (k : Nat) : Bool := decide (axisLen x k ≠ 1 ∧ axisLen t k = 1)

theorem axesToCollapse_ok {x t : List Nat} (h : CollapsesTo x t) :
    axesToCollapse x t = .ok ((descSel x.length (collapsePred x t)).map (· + 1)) := by
  unfold axesToCollapse
  rw [foldlM_range_append x.length (fun p => axisToCollapse x t (x.length - p))
    (fun p => collapsePred x t (x.length - 1 - p)) (fun p => x.length - p)]
  · simp only [List.nil_append, descSel, List.map_map]
    congr 1
    apply List.map_congr_left
    intro p hp
    simp at hp
    simp only [comp]
    omega
  · intro p hp
    rw [show x.length - p = (x.length - 1 - p) + 1 by omega, axisToCollapse_eq (by omega)]
    have := h (x.length - 1 - p)
    unfold collapsePred
    split
    · split
      · simp_all
      · split
        · omega
        · simp_all
    · simp_all

theorem axesToCollapse_error {x t : List Nat} (h : ¬ CollapsesTo x t) :
    axesToCollapse x t = .error .exception := by
  unfold axesToCollapse
  apply foldlM_error_of
  · intro s p e' hp h1
    have hp : p < x.length := by simpa using hp
    simp only [] at h1
    rw [show x.length - p = (x.length - 1 - p) + 1 by omega, axisToCollapse_eq (by omega)] at h1
    split at h1
    · split at h1
      · cases h1
      · split at h1
        · cases h1; rfl
        · cases h1
    · cases h1
  · have : ∃ k, ¬ (axisLen x k = 1 ∨ axisLen t k = 1 ∨ axisLen t k = axisLen x k) := by
      by_contra hc
      apply h
      intro k
      by_contra h3
      exact hc ⟨k, h3⟩
    obtain ⟨k, hk⟩ := this
    have hkl : k < x.length := by
      by_contra hc
      exact hk (.inl (axisLen_of_ge (by omega)))
    refine ⟨x.length - 1 - k, by simp; omega, fun s => ⟨.exception, ?_⟩⟩
    simp only []
    rw [show x.length - (x.length - 1 - k) = k + 1 by omega, axisToCollapse_eq hkl]
    simp only [not_or] at hk
    simp [hk.1, hk.2.1, hk.2.2, bind, Except.bind]

/-! ## `np.sum(..., keepdims=True)` -/

theorem axisLen_collapseShape (s ks : List Nat) (k : Nat) (hk : k < s.length) :
    axisLen (collapseShape s ks) k = if k + 1 ∈ ks then 1 else axisLen s k := by
  have hl : (collapseShape s ks).length = s.length := by simp [collapseShape]
  have h1 := axisLen_eq_getElem (r := collapseShape s ks) (j := s.length - 1 - k) (by omega)
  have hk1 : (collapseShape s ks).length - 1 - (s.length - 1 - k) = k := by omega
  rw [hk1] at h1
  have h2 := axisLen_eq_getElem (r := s) (j := s.length - 1 - k) (by omega)
  rw [show s.length - 1 - (s.length - 1 - k) = k by omega] at h2
  rw [h1, h2]
  simp only [collapseShape, List.getElem_mapIdx]
  rw [show s.length - (s.length - 1 - k) = k + 1 by omega]

theorem axisLen_collapseShape_ge (s ks : List Nat) (k : Nat) (hk : s.length ≤ k) :
    axisLen (collapseShape s ks) k = 1 := axisLen_of_ge (by simpa [collapseShape] using hk)

theorem length_collapseShape (s ks : List Nat) : (collapseShape s ks).length = s.length := by
  simp [collapseShape]

/-- `np.sum` over distinct in-range axes: shape and values at every coordinate. -/
theorem npSumKeep_ok {α : Type _} [AddCommMonoid α] (X : Arr α) (js : List Nat) (hnd : js.Nodup)
    (hlt : ∀ j ∈ js, j < X.shape.length) :
    ∃ Y, npSumKeep X (js.map (· + 1)) = .ok Y ∧ Y.shape = collapseShape X.shape (js.map (· + 1)) ∧
      ∀ c, Y.at c = sumAxes (js.map fun j => (j, axisLen X.shape j)) X.at c := by
  refine ⟨{ shape := collapseShape X.shape (js.map (· + 1))
            get := fun c => sumAxes ((js.map (· + 1)).map
              fun k => (k - 1, axisLen X.shape (k - 1))) X.at c }, ?_, rfl, ?_⟩
  · unfold npSumKeep
    rw [if_pos]
    refine ⟨?_, ?_⟩
    · intro k hk
      simp at hk
      obtain ⟨j, hj, rfl⟩ := hk
      have := hlt j hj
      omega
    · exact hnd.map (by intro a b h; simpa using h)
  · intro c
    simp only [Arr.at, List.map_map]
    have e : ((fun k => (k - 1, axisLen X.shape (k - 1))) ∘ fun x => x + 1)
        = fun j => (j, axisLen X.shape j) := by funext j; simp
    rw [e]
    have key : ∀ c', sumAxes (js.map fun j => (j, axisLen X.shape j)) X.at
        (restrict (collapseShape X.shape (js.map (· + 1))) c') =
        sumAxes (js.map fun j => (j, axisLen X.shape j)) X.at c' := by
      intro c'
      have h1 : ∀ c'', sumAxes (js.map fun j => (j, axisLen X.shape j)) X.at c''
          = sumAxes (js.map fun j => (j, axisLen X.shape j)) X.at (restrict X.shape c'') := by
        intro c''
        have : ∀ (L : List (Nat × Nat)) (c1 c2 : Nat → Nat),
            (∀ k, k ∉ L.map (·.1) → axisLen X.shape k ≠ 1 → c1 k = c2 k) →
            sumAxes L X.at c1 = sumAxes L X.at c2 := by
          intro L
          induction L with
          | nil =>
            intro c1 c2 h
            simp only [sumAxes]
            exact X.at_congr (fun k hk => h k (by simp) hk)
          | cons p L ih =>
            obtain ⟨j, d⟩ := p
            intro c1 c2 h
            simp only [sumAxes]
            apply Finset.sum_congr rfl
            intro t _
            apply ih
            intro k hk hk1
            by_cases hkj : k = j
            · subst hkj; simp
            · rw [update_of_ne hkj, update_of_ne hkj]
              exact h k (by simpa [hkj] using hk) hk1
        apply this
        intro k _ hk1
        simp [restrict, hk1]
      rw [h1, h1 c']
      apply sumAxes_base
      intro k hk
      have hk' : k ∉ js := by simpa using hk
      unfold restrict
      by_cases h1 : axisLen X.shape k = 1
      · simp [h1]
      · have hlt : k < X.shape.length := by
          by_contra hc
          exact h1 (axisLen_of_ge (by omega))
        rw [axisLen_collapseShape _ _ _ hlt]
        simp [hk', h1]
    exact key c

end Verif
