import Verif.Lemmas.Message
import Verif.Props.SumMultiply

/-!
# C09, C10 and C55: messages and masks on their way to a parent
-/

namespace Verif
open Spec

/-! ## C09 -/

open Classical in
/-- **C09** If the plates of the parent, the mask and the message broadcast to the plates of the node (with
the dims of the parent), the message to the parent broadcasts to the plates and dims of the parent, and
at each parent plate it is the sum over all plates of the node that map to this parent plate and are
not masked out, times the plate multiplier `r` (which is one unless the node uses `plates_multiplier`). -/
theorem C09_message_to_parent {α : Type} [CommSemiring α]
    (platesSelf platesParent dims multSelf multParent : List Nat) (mask : Arr Bool) (m : Arr α)
    (hparent : BroadcastsTo platesParent platesSelf) (hmask : BroadcastsTo mask.shape platesSelf)
    (hm : BroadcastsTo m.shape (platesSelf ++ dims)) (hmult : BroadcastsTo multParent multSelf) :
    ∃ r y, broadcastingMultiplier multSelf [multParent] = .ok r ∧
      messageToParent platesSelf platesParent dims multSelf multParent mask m = .ok y ∧
      BroadcastsTo y.shape (platesParent ++ dims) ∧
      ∀ d p : Nat → Nat, ValidIn dims d → ValidIn platesParent p →
        y.at (joinC dims.length d p) = r * sumOver platesSelf fun c =>
          if ReadsFrom platesParent c p ∧ mask.at c = true then m.at (joinC dims.length d c) else 0 := by
  set n := dims.length with hn
  -- the multiplier
  have hr := broadcastingMultiplier_ok (plates := multSelf) (args := [multParent]) (by simpa using hmult)
  set r := ((selAxes multSelf (fun k => decide (∀ a ∈ [multParent], axisLen a k = 1))).map (·.2)).prod
  -- the mask with trailing axes
  set maskI := addTrailingAxes (squeezeLeading mask) n with hmaskI
  have hmaskat : ∀ d c, maskI.at (joinC n d c) = mask.at c := by
    intro d c
    rw [hmaskI, addTrailingAxes_at, (squeezeLeading_at _ _).1]
    congr 1
    funext k
    unfold joinC
    rw [if_neg (by omega), Nat.add_sub_cancel]
  have hmaskb : BroadcastsTo maskI.shape (platesSelf ++ dims) := by
    refine ⟨?_, fun k => ?_⟩
    · show (_ ++ List.replicate n 1).length ≤ _
      rw [List.length_append, List.length_replicate, List.length_append, ← hn]
      have := (squeezeLeading_at mask fun _ => 0).2.2
      have := hmask.1
      omega
    · rw [hmaskI, axisLen_addTrailingAxes, axisLen_append, ← hn]
      split
      · exact .inl rfl
      · rw [(squeezeLeading_at mask fun _ => 0).2.1]
        exact hmask.2 _
  -- the masked message
  obtain ⟨w, hw, hwb⟩ := isBroadcast_of_common hmaskb hm
  obtain ⟨W, hW, hWs, hWat⟩ := npWhere_ok hw
  -- the source shape
  have hfrom : messageFromShape platesSelf dims m.shape = .ok (platesSelf ++ dims) := by
    unfold messageFromShape
    rw [← hn]
    split
    · have hb : BroadcastsTo (m.shape.drop (m.shape.length - n)) dims := by
        refine ⟨by simp; omega, fun k => ?_⟩
        have hax : axisLen (m.shape.drop (m.shape.length - n)) k =
            if k < n then axisLen m.shape k else 1 := by
          unfold axisLen
          rw [List.reverse_drop, List.getElem?_take]
          by_cases hl : n ≤ m.shape.length
          · rw [show m.shape.length - (m.shape.length - n) = n by omega]
            split <;> rfl
          · rw [show m.shape.length - (m.shape.length - n) = m.shape.length by omega]
            split
            · split
              · rfl
              · omega
            · split
              · rw [List.getElem?_eq_none (by simp; omega)]
              · rfl
        rw [hax]
        split
        · have := hm.2 k
          rwa [axisLen_append, if_pos (by omega)] at this
        · exact .inl rfl
      have : IsBroadcast [m.shape.drop (m.shape.length - n), dims] dims := by
        refine ⟨?_, .inr ⟨dims, by simp, rfl⟩, ?_, fun k => .inr ⟨dims, by simp, rfl⟩⟩
        · intro s hs
          have hs' : s = m.shape.drop (m.shape.length - n) ∨ s = dims := by simpa using hs
          rcases hs' with rfl | rfl
          · exact hb.1
          · exact Nat.le_refl _
        · intro k s hs
          have hs' : s = m.shape.drop (m.shape.length - n) ∨ s = dims := by simpa using hs
          rcases hs' with rfl | rfl
          · exact hb.2 k
          · exact .inr rfl
      rw [(broadcastedShape_ok _ _).2 this]
      rfl
    · have : dims = [] := List.eq_nil_of_length_eq_zero (by omega)
      rw [this, List.append_nil]
      rfl
  have hT : BroadcastsTo (platesParent ++ dims) (platesSelf ++ dims) := by
    refine ⟨by have := hparent.1; simp; omega, fun k => ?_⟩
    rw [axisLen_append, axisLen_append]
    split
    · exact .inr rfl
    · exact hparent.2 _
  obtain ⟨y, hy, hyl, _, hyax, hyat⟩ := C05_sum_multiply_to_plates [W] w (platesParent ++ dims)
    (platesSelf ++ dims) 0 (by simp)
    (by
      refine ⟨by simp [hWs], .inr ⟨w, by simp [hWs], rfl⟩, ?_, fun k => .inr ⟨w, by simp [hWs], rfl⟩⟩
      intro k s hs
      have : s = w := by simpa [hWs] using hs
      exact .inr (by rw [this]))
    (by
      refine ⟨by rw [length_getPlates]; have := hwb.1; omega, fun k => ?_⟩
      rw [axisLen_getPlates]
      exact hwb.2 k) hT
  refine ⟨r, npScale r y, hr, ?_, ⟨hyl, hyax⟩, fun d p hd hp => ?_⟩
  · unfold messageToParent
    rw [hr, hfrom]
    show (npWhere maskI m >>= fun w => sumMultiplyToPlates [w] (platesParent ++ dims)
      (some (platesSelf ++ dims)) 0 >>= fun y => pure (npScale r y)) = _
    rw [hW]
    show (sumMultiplyToPlates [W] (platesParent ++ dims) (some (platesSelf ++ dims)) 0 >>=
      fun y => pure (npScale r y)) = _
    rw [hy]
    rfl
  · rw [npScale_at, hyat _ (by simp) (fun j => validIn_joinC hd hp j), sumOver_append]
    congr 1
    apply sumOver_congr
    intro i hi
    set c := coord i
    have hiff : ∀ e, ReadsFrom (platesParent ++ dims) (joinC n e c) (joinC n d p) ↔
        ReadsFrom platesParent c p ∧ ∀ k < n, axisLen dims k = 1 ∨ e k = d k := by
      intro e
      constructor
      · intro h
        refine ⟨fun k => ?_, fun k hk => ?_⟩
        · have := h (k + n)
          rw [axisLen_append, ← hn, if_neg (by omega)] at this
          unfold joinC at this
          rw [if_neg (by omega), if_neg (by omega), Nat.add_sub_cancel] at this
          exact this
        · have := h k
          rw [axisLen_append, ← hn, if_pos hk] at this
          unfold joinC at this
          rwa [if_pos hk, if_pos hk] at this
      · rintro ⟨h1, h2⟩ k
        rw [axisLen_append, ← hn]
        unfold joinC
        split
        · exact h2 k ‹_›
        · exact h1 _
    have hsum : ∀ e ∈ (indices dims), ((if ReadsFrom (platesParent ++ dims) (joinC n (coord e) c)
          (fun j => joinC n d p (j + 0)) then
          ([W].map fun X => X.at fun k => if k < 0 then joinC n d p k else joinC n (coord e) c (k - 0)).prod
          else 0) : α) =
        if ∀ k < dims.length, coord e k = d k then
          (if ReadsFrom platesParent c p ∧ mask.at c = true then m.at (joinC n (coord e) c) else 0) else 0 := by
      intro e he
      have hv := coord_valid he
      have hk1 : (∀ k < n, axisLen dims k = 1 ∨ coord e k = d k) ↔ ∀ k < n, coord e k = d k := by
        constructor
        · intro h k hk
          rcases h k hk with h1 | h1
          · have := hv k
            have := hd k
            omega
          · exact h1
        · exact fun h k hk => .inr (h k hk)
      have hWv : W.at (joinC n (coord e) c) = if mask.at c = true then m.at (joinC n (coord e) c) else 0 := by
        rw [hWat, hmaskat]
      have e1 : (fun k => if k < 0 then joinC n d p k else joinC n (coord e) c (k - 0)) =
          joinC n (coord e) c := by
        funext k; simp
      simp only [Nat.add_zero, List.map_cons, List.map_nil, List.prod_cons, List.prod_nil, mul_one, e1, hWv]
      by_cases hA : ∀ k < n, coord e k = d k
      · rw [if_pos hA]
        by_cases hB : ReadsFrom platesParent c p
        · rw [if_pos ((hiff _).2 ⟨hB, hk1.2 hA⟩)]
          by_cases hC : mask.at c = true
          · rw [if_pos hC, if_pos ⟨hB, hC⟩]
          · rw [if_neg hC, if_neg (fun h => hC h.2)]
        · rw [if_neg (fun h => hB ((hiff _).1 h).1), if_neg (fun h => hB h.1)]
      · rw [if_neg hA, if_neg (fun h => hA (hk1.1 ((hiff _).1 h).2))]
    refine (sumOver_congr dims (g := fun e => if ∀ k < dims.length, e k = d k then
      (if ReadsFrom platesParent c p ∧ mask.at c = true then m.at (joinC n e c) else 0) else 0) hsum).trans ?_
    rw [sumOver_single dims _ d (fun k _ => hd k)]
    have e2 : joinC n (fun k => if k < dims.length then d k else 0) c = joinC n d c := by
      funext k
      unfold joinC
      split
      · exact if_pos ‹_›
      · rfl
    rw [e2]

/-- Without plate multipliers the factor is one. -/
example : broadcastingMultiplier [] [[]] = .ok 1 := by decide

/-- Plates `(2, 3)` of the node, parent plates `(3,)`, one variable axis of length two; the message is
broadcast over the first plate axis, the mask hides one plate. -/
example : BroadcastsTo [3] [2, 3] ∧ BroadcastsTo [2, 1] [2, 3] ∧ BroadcastsTo [3, 2] ([2, 3] ++ [2]) ∧
    (match messageToParent [2, 3] [3] [2] [] [] ⟨[2, 1], fun c => c 1 == 0⟩
        (⟨[3, 2], fun c => 10 * c 1 + c 0⟩ : Arr Nat) with
      | .ok y => (y.shape, (indices [3, 2]).map fun i => y.get (coord i))
      | .error _ => ([], [])) = ([3, 2], [0, 1, 10, 11, 20, 21]) := by
  refine ⟨(isShapeSubset_true _ _).1 (by decide), (isShapeSubset_true _ _).1 (by decide),
    (isShapeSubset_true _ _).1 (by decide), by decide +kernel⟩

/-- **C09** If the mask, the plates of the message or the plates of the parent do not fit the plates of the
node, no message is sent: `ValueError`. -/
theorem C09_rejects {α : Type} [CommSemiring α]
    (platesSelf platesParent dims multSelf multParent : List Nat) (mask : Arr Bool) (m : Arr α)
    (h : (∃ k, axisLen mask.shape k ≠ 1 ∧ axisLen mask.shape k ≠ axisLen platesSelf k) ∨
      (∃ k, axisLen m.shape (k + dims.length) ≠ 1 ∧ axisLen m.shape (k + dims.length) ≠ axisLen platesSelf k) ∨
      (∃ k, axisLen platesParent k ≠ 1 ∧ axisLen platesParent k ≠ axisLen platesSelf k)) :
    messageToParent platesSelf platesParent dims multSelf multParent mask m = .error .valueError := by
  unfold messageToParent
  cases hr : broadcastingMultiplier multSelf [multParent] with
  | error e => rfl
  | ok r =>
    show (messageFromShape platesSelf dims m.shape >>= fun f =>
      npWhere (addTrailingAxes (squeezeLeading mask) dims.length) m >>= fun w =>
      sumMultiplyToPlates [w] (platesParent ++ dims) (some f) 0 >>= fun y => pure (npScale r y)) = _
    have hf : messageFromShape platesSelf dims m.shape = .error .valueError ∨
        ∃ d, d.length = dims.length ∧ messageFromShape platesSelf dims m.shape = .ok (platesSelf ++ d) := by
      unfold messageFromShape
      split
      · cases hb : broadcastedShape [m.shape.drop (m.shape.length - dims.length), dims] with
        | error e => left; rw [broadcastedShape_error hb]; rfl
        | ok d =>
          right
          refine ⟨d, ?_, rfl⟩
          have hd := (broadcastedShape_ok _ _).1 hb
          have h1 := hd.rank_ge dims (by simp)
          rcases hd.rank_le with h2 | ⟨s, hs, h2⟩
          · omega
          · have hs' : s = m.shape.drop (m.shape.length - dims.length) ∨ s = dims := by simpa using hs
            rcases hs' with rfl | rfl
            · simp at h2; omega
            · omega
      · exact .inr ⟨[], by simp; omega, by rw [List.append_nil]; rfl⟩
    rcases hf with hf | ⟨d, hd, hf⟩
    · rw [hf]; rfl
    · rw [hf]
      show (npWhere (addTrailingAxes (squeezeLeading mask) dims.length) m >>= fun w =>
        sumMultiplyToPlates [w] (platesParent ++ dims) (some (platesSelf ++ d)) 0 >>=
          fun y => pure (npScale r y)) = _
      cases hw : broadcastedShape [(addTrailingAxes (squeezeLeading mask) dims.length).shape, m.shape] with
      | error e =>
        have : npWhere (addTrailingAxes (squeezeLeading mask) dims.length) m = .error .valueError := by
          unfold npWhere
          rw [hw, broadcastedShape_error hw]
          rfl
        rw [this]
        rfl
      | ok w =>
        have hwb := (broadcastedShape_ok _ _).1 hw
        obtain ⟨W, hW, hWs, _⟩ := npWhere_ok hwb
        rw [hW]
        show (sumMultiplyToPlates [W] (platesParent ++ dims) (some (platesSelf ++ d)) 0 >>=
          fun y => pure (npScale r y)) = _
        rw [C05_sum_multiply_to_plates_rejects]
        · rfl
        · rintro P hP ⟨hP1, hP2⟩
          have hPw : ∀ k, axisLen P k = axisLen w k := by
            intro k
            have hfit := hP.fits k w (by simp [getPlates, hWs])
            rcases hP.attained k with h | ⟨s, hs, h⟩
            · omega
            · have : s = w := by simpa [getPlates, hWs] using hs
              rw [← h, this]
          have hk : ∀ k, axisLen w (k + dims.length) = 1 ∨
              axisLen w (k + dims.length) = axisLen platesSelf k := by
            intro k
            have := hP1.2 (k + dims.length)
            rw [hPw, axisLen_append, hd, if_neg (by omega), Nat.add_sub_cancel] at this
            exact this
          rcases h with ⟨k, h1, h2⟩ | ⟨k, h1, h2⟩ | ⟨k, h1, h2⟩
          · have h3 := hwb.fits (k + dims.length) (addTrailingAxes (squeezeLeading mask) dims.length).shape
              (by simp)
            rw [axisLen_addTrailingAxes, if_neg (by omega), Nat.add_sub_cancel,
              (squeezeLeading_at mask fun _ => 0).2.1] at h3
            have := hk k
            omega
          · have h3 := hwb.fits (k + dims.length) m.shape (by simp)
            have := hk k
            omega
          · have h3 := hP2.2 (k + dims.length)
            rw [axisLen_append, axisLen_append, hd, if_neg (by omega), if_neg (by omega),
              Nat.add_sub_cancel] at h3
            omega

/-! ## C10 -/

/-- **C10** For plates without empty axes: the mask sent to the parent has at most the plates of the parent,
and it is true at a parent plate iff some plate of the node that maps to it is true in the node's mask.
(Empty axes: see the counterexample below.) -/
theorem C10_active_iff_partial (platesSelf platesParent : List Nat) (mask : Arr Bool)
    (hpos : ∀ k, 0 < axisLen platesSelf k)
    (hparent : BroadcastsTo platesParent platesSelf) (hmask : BroadcastsTo mask.shape platesSelf) :
    ∃ y, maskToParent platesSelf platesParent mask = .ok y ∧ BroadcastsTo y.shape platesParent ∧
      ∀ p, ValidIn platesParent p →
        (y.at p = true ↔ ∃ c, ValidIn platesSelf c ∧ ReadsFrom platesParent c p ∧ mask.at c = true) := by
  have hcol : CollapsesTo mask.shape platesParent := by
    intro k
    have := hparent.2 k
    have := hmask.2 k
    omega
  set js := descSel mask.shape.length (collapsePred mask.shape platesParent) with hjs
  have hmem : ∀ k, k ∈ js ↔ axisLen mask.shape k ≠ 1 ∧ axisLen platesParent k = 1 := by
    intro k
    rw [hjs, mem_descSel]
    unfold collapsePred
    rw [decide_eq_true_eq]
    constructor
    · exact fun h => h.2
    · refine fun h => ⟨?_, h⟩
      by_contra hc
      exact h.1 (axisLen_of_ge (by omega))
  have hjlt : ∀ j ∈ js, j < mask.shape.length := fun j hj => (mem_descSel.1 hj).1
  let Y : Arr Bool :=
    { shape := collapseShape mask.shape (js.map (· + 1))
      get := fun c => anyAxes ((js.map (· + 1)).map
        fun k => (k - 1, axisLen mask.shape (k - 1))) mask.at c }
  have hY : npAnyKeep mask (js.map (· + 1)) = .ok Y := by
    unfold npAnyKeep
    rw [if_pos]
    refine ⟨?_, (nodup_descSel _ _).map (by intro a b h; simpa using h)⟩
    intro k hk
    obtain ⟨j, hj, rfl⟩ := List.mem_map.1 hk
    have := hjlt j hj
    omega
  have hYax : ∀ k, axisLen Y.shape k = if axisLen platesParent k = 1 then 1 else axisLen mask.shape k := by
    intro k
    by_cases hk : k < mask.shape.length
    · rw [show Y.shape = _ from rfl, axisLen_collapseShape _ _ _ hk]
      have : k + 1 ∈ js.map (· + 1) ↔ axisLen mask.shape k ≠ 1 ∧ axisLen platesParent k = 1 := by
        rw [← hmem k]; simp
      by_cases h1 : axisLen platesParent k = 1
      · by_cases h2 : axisLen mask.shape k = 1
        · split <;> simp [h1, h2]
        · rw [if_pos (this.2 ⟨h2, h1⟩), if_pos h1]
      · rw [if_neg (fun h => h1 (this.1 h).2), if_neg h1]
    · rw [show Y.shape = _ from rfl, axisLen_collapseShape_ge _ _ _ (by omega), axisLen_of_ge (s := mask.shape) (by omega)]
      split <;> rfl
  obtain ⟨y, hy, hyl, hyax, hyat⟩ := squeezeToDim_ok (X := Y) (d := platesParent.length) (by
    intro i hi
    rw [hYax, if_pos (axisLen_of_ge hi)])
  refine ⟨y, ?_, ⟨by omega, fun k => ?_⟩, fun p hp => ?_⟩
  · unfold maskToParent
    rw [(isShapeSubset_true _ _).2 hmask, axesToCollapse_ok hcol]
    show (npAnyKeep mask (js.map (· + 1)) >>= fun m => squeezeToDim m platesParent.length) = _
    rw [hY]
    exact hy
  · rw [hyax, hYax]
    have := hparent.2 k
    have := hmask.2 k
    split <;> omega
  · rw [hyat]
    show anyAxes ((js.map (· + 1)).map fun k => (k - 1, axisLen mask.shape (k - 1))) mask.at
      (restrict Y.shape p) = true ↔ _
    have e : (js.map (· + 1)).map (fun k => (k - 1, axisLen mask.shape (k - 1))) =
        js.map fun j => (j, axisLen mask.shape j) := by
      rw [List.map_map]
      rfl
    have ek : (js.map fun j => (j, axisLen mask.shape j)).map (·.1) = js := by
      rw [List.map_map]
      exact List.map_id _
    rw [e, anyAxes_iff _ (by rw [ek]; exact nodup_descSel _ _), ek]
    constructor
    · rintro ⟨c', h1, h2, h3⟩
      -- complete `c'` to a plate of the node
      refine ⟨fun k => if axisLen platesParent k = 1 then
        (if axisLen mask.shape k = 1 then 0 else c' k) else p k, fun k => ?_, fun k => ?_, ?_⟩
      · have hpk := hp k
        have h4 := hparent.2 k
        have h5 := hmask.2 k
        have h6 := hpos k
        show (if axisLen platesParent k = 1 then
          (if axisLen mask.shape k = 1 then 0 else c' k) else p k) < _
        split
        · split
          · exact h6
          · have := h1 (k, axisLen mask.shape k) (List.mem_map.2 ⟨k, (hmem k).2 ⟨‹_›, ‹_›⟩, rfl⟩)
            simp only at this
            omega
        · omega
      · by_cases h : axisLen platesParent k = 1
        · exact .inl h
        · exact .inr (if_neg h)
      · rw [← h3]
        apply mask.at_congr
        intro k hk
        show (if axisLen platesParent k = 1 then
          (if axisLen mask.shape k = 1 then 0 else c' k) else p k) = _
        by_cases h : axisLen platesParent k = 1
        · rw [if_pos h, if_neg hk]
        · rw [if_neg h, h2 k (fun hm => h ((hmem k).1 hm).2)]
          unfold restrict
          rw [hYax, if_neg h, if_neg hk]
    · rintro ⟨c, h1, h2, h3⟩
      refine ⟨fun k => if k ∈ js then c k else restrict Y.shape p k, ?_, fun k hk => if_neg hk, ?_⟩
      · intro q hq
        obtain ⟨j, hj, rfl⟩ := List.mem_map.1 hq
        show (if j ∈ js then c j else _) < axisLen mask.shape j
        rw [if_pos hj]
        have := h1 j
        have := (hmem j).1 hj
        have := hmask.2 j
        omega
      · rw [← h3]
        apply mask.at_congr
        intro k hk
        show (if k ∈ js then _ else _) = _
        split
        · rfl
        · rename_i hkj
          have hpar : axisLen platesParent k ≠ 1 := fun h => hkj ((hmem k).2 ⟨hk, h⟩)
          unfold restrict
          rw [hYax, if_neg hpar, if_neg hk]
          rcases h2 k with h | h
          · exact absurd h hpar
          · exact h.symm

/-- **C10** A mask that does not fit the plates of the node raises `ValueError`. -/
theorem C10_rejects (platesSelf platesParent : List Nat) (mask : Arr Bool)
    (h : ¬ BroadcastsTo mask.shape platesSelf) :
    maskToParent platesSelf platesParent mask = .error .valueError := by
  unfold maskToParent
  classical
  rw [isShapeSubset_ok_decide, decide_eq_false h]
  rfl

/-- **C10** refuted for empty plates: the node has no plates at all, but the parent is told it is active. -/
theorem C10_empty_plates_counterexample :
    (match maskToParent [0] [] ⟨[], fun _ => true⟩ with
      | .ok y => y.at (fun _ => 0)
      | .error _ => false) = true ∧
    ¬ ∃ c, ValidIn [0] c ∧ ReadsFrom [] c (fun _ => 0) ∧
      (⟨[], fun _ => true⟩ : Arr Bool).at c = true := by
  refine ⟨by decide +kernel, ?_⟩
  rintro ⟨c, h, _⟩
  have := h 0
  simp [axisLen] at this

example : (∀ k, 0 < axisLen [2, 3] k) ∧ BroadcastsTo [3] [2, 3] ∧ BroadcastsTo [2, 1] [2, 3] ∧
    (match maskToParent [2, 3] [2, 1] ⟨[3], fun c => c 0 == 1⟩ with
      | .ok y => (y.shape, y.at (fun _ => 0))
      | .error _ => ([], false)) = ([1], true) := by
  refine ⟨fun k => ?_, (isShapeSubset_true _ _).1 (by decide), (isShapeSubset_true _ _).1 (by decide),
    by decide +kernel⟩
  rcases k with _ | _ | k
  · decide
  · decide
  · rw [axisLen_of_ge (by simp)]; exact Nat.one_pos

/-! ## C55 -/

/-- **C55** A node adds up the messages of all its children: if they broadcast to the node's plates and
dims, so does the total, which keeps all dims, and at each element it is the sum of the children's
messages there (empty messages count as zero). -/
theorem C55_message_from_children {α : Type} [AddCommMonoid α] (plates dims : List Nat)
    (ms : List (Option (Arr α))) (h : ∀ m ∈ ms, ∀ X, m = some X → BroadcastsTo X.shape (plates ++ dims)) :
    ∃ y, messageFromChildren plates dims ms = .ok y ∧ BroadcastsTo y.shape (plates ++ dims) ∧
      BroadcastsTo dims y.shape ∧
      ∀ c, y.at c = (ms.map fun m => match m with | some X => X.at c | none => 0).sum := by
  have hgen : ∀ (ms : List (Option (Arr α))) (msg : Arr α),
      (∀ m ∈ ms, ∀ X, m = some X → BroadcastsTo X.shape (plates ++ dims)) →
      BroadcastsTo msg.shape (plates ++ dims) → BroadcastsTo dims msg.shape →
      ∃ y, ms.foldlM (fun (msg : Arr α) m => match m with
          | none => pure msg
          | some m => do
            let _ ← broadcastedShape [plates ++ dims, m.shape]
            npAdd msg m) msg = Except.ok (ε := PyErr) y ∧ BroadcastsTo y.shape (plates ++ dims) ∧
        BroadcastsTo dims y.shape ∧
        ∀ c, y.at c = msg.at c + (ms.map fun m => match m with | some X => X.at c | none => 0).sum := by
    intro ms
    induction ms with
    | nil => intro msg _ h2 h3; exact ⟨msg, rfl, h2, h3, fun c => by simp⟩
    | cons m ms ih =>
      intro msg h1 h2 h3
      cases m with
      | none =>
        obtain ⟨y, hy, hb, hd, hat⟩ := ih msg (fun m hm => h1 m (by simp [hm])) h2 h3
        refine ⟨y, ?_, hb, hd, fun c => by rw [hat]; simp⟩
        rw [List.foldlM_cons]
        exact hy
      | some X =>
        have hX := h1 (some X) (by simp) X rfl
        obtain ⟨r, hr, hrb⟩ := isBroadcast_of_common h2 hX
        have hrd : BroadcastsTo dims r := by
          have hge := hr.rank_ge msg.shape (by simp)
          refine ⟨by have := h3.1; omega, fun k => ?_⟩
          by_cases hk : k < dims.length
          · have a1 := h2.2 k
            have a2 := h3.2 k
            have a3 := hr.fits k msg.shape (by simp)
            have a4 := hrb.2 k
            rw [axisLen_append, if_pos hk] at a1 a4
            omega
          · exact .inl (axisLen_of_ge (by omega))
        obtain ⟨y, hy, hb, hd, hat⟩ := ih { shape := r, get := fun c => msg.at c + X.at c }
          (fun m hm => h1 m (by simp [hm])) hrb hrd
        refine ⟨y, ?_, hb, hd, fun c => ?_⟩
        · rw [List.foldlM_cons]
          have e1 : broadcastedShape [plates ++ dims, X.shape] = .ok (plates ++ dims) :=
            (broadcastedShape_ok _ _).2 (isBroadcast_pair_of_broadcastsTo hX)
          have e2 : npAdd msg X = .ok { shape := r, get := fun c => msg.at c + X.at c } := by
            unfold npAdd
            rw [(broadcastedShape_ok _ _).2 hr]
            rfl
          simp only [e1, e2]
          exact hy
        · rw [hat]
          have : (Arr.mk r fun c => msg.at c + X.at c).at c = msg.at c + X.at c := by
            show msg.at (restrict r c) + X.at (restrict r c) = _
            rw [at_isBroadcast hr (by simp), at_isBroadcast hr (by simp)]
          rw [this]
          simp [add_assoc]
  obtain ⟨y, hy, hb, hd, hat⟩ := hgen ms { shape := dims, get := fun _ => 0 } h
    ⟨by simp, fun k => by
      rw [axisLen_append]
      split
      · exact .inr rfl
      · exact .inl (axisLen_of_ge (by show dims.length ≤ k; omega))⟩ (BroadcastsTo.refl _)
  refine ⟨y, hy, hb, hd, fun c => ?_⟩
  rw [hat]
  show (0 : α) + _ = _
  rw [zero_add]

example : ∀ m ∈ [some (⟨[3, 2], fun c => c 0⟩ : Arr Nat), none, some ⟨[4, 1, 1], fun c => c 2⟩], ∀ X,
    m = some X → BroadcastsTo X.shape ([4, 3] ++ [2]) := by
  intro m hm X hX
  subst hX
  have : X = ⟨[3, 2], fun c => c 0⟩ ∨ X = ⟨[4, 1, 1], fun c => c 2⟩ := by simpa using hm
  rcases this with rfl | rfl <;> exact (isShapeSubset_true _ _).1 (by decide)

end Verif
