import Verif.Spec.Gate
import Verif.Lemmas.RightAxes
import Verif.Props.Slice
import Verif.Props.Concatenate

/-!
# C15: the `Gate` node

`P` are the plates of the node, `K` the number of clusters and `gated_plate = -(g + 1)`; the plates of `X`
are `insAxis g K P`.  The element `p` of the node uses the elements `insC g k p` of `X` and the
probabilities `consC k p` (`k` is the position along the last axis of the moments of `Z`).  Coordinates of the
variable axes are joined by `joinC`.  All arrays may be broadcast along plates.
-/

namespace Verif
open Spec

theorem axisLen_insAxis {g K : Nat} {P : List Nat} (hg : g ≤ P.length) (j : Nat) :
    axisLen (insAxis g K P) j = if j < g then axisLen P j else if j = g then K else axisLen P (j - 1) := by
  unfold insAxis
  have hl : (P.drop (P.length - g)).length = g := by simp; omega
  have hP : ∀ k, axisLen P k = if k < g then axisLen (P.drop (P.length - g)) k
      else axisLen (P.take (P.length - g)) (k - g) := by
    intro k
    conv_lhs => rw [← List.take_append_drop (P.length - g) P]
    rw [axisLen_append, hl]
  rw [axisLen_append, hl, axisLen_append]
  by_cases h1 : j < g
  · rw [if_pos h1, if_pos h1, hP j, if_pos h1]
  · rw [if_neg h1, if_neg h1]
    by_cases h2 : j = g
    · rw [if_pos h2, if_pos (by simp; omega)]
      subst h2
      simp [axisLen]
    · rw [if_neg h2, if_neg (by simp; omega), hP, if_neg (by omega)]
      congr 1
      simp
      omega

theorem length_insAxis {g K : Nat} {P : List Nat} : (insAxis g K P).length = P.length + 1 := by
  unfold insAxis
  simp
  omega

theorem axisLen_single (K j : Nat) : axisLen [K] j = if j = 0 then K else 1 := by
  cases j <;> simp [axisLen]

theorem validIn_consC {P : List Nat} {p : Nat → Nat} {k K : Nat} (hk : k < K) (hp : ValidIn P p) :
    ValidIn (P ++ [K]) (consC k p) := by
  intro j
  rw [axisLen_append, axisLen_single]
  cases j with
  | zero => simpa [consC] using hk
  | succ j => simpa [consC] using hp j

section
variable {α : Type} {P dims S : List Nat} {g K : Nat}

/-- The moments of `Z` with the gated axis last. -/
theorem gateZ_ok {z : Arr α} (hz : z.shape = S ++ [K]) (hS : BroadcastsTo S P) :
    ∃ z', gateZ z dims.length = .ok z' ∧ BroadcastsTo z'.shape (P ++ dims ++ [K]) ∧ 1 ≤ z'.shape.length ∧
      axisLen z'.shape 0 = K ∧
      ∀ κ d p, z'.at (consC κ (joinC dims.length d p)) = z.at (consC κ p) := by
  set nd := dims.length with hnd
  have hzl : (addTrailingAxes z nd).shape.length = S.length + 1 + nd := by
    show (z.shape ++ List.replicate nd 1).length = _
    rw [hz]; simp; omega
  have hzax : ∀ j, axisLen (addTrailingAxes z nd).shape j =
      if j < nd then 1 else if j = nd then K else axisLen S (j - nd - 1) := by
    intro j
    rw [axisLen_addTrailingAxes, hz, axisLen_append, axisLen_single]
    by_cases h : j < nd
    · rw [if_pos h, if_pos h]
    · rw [if_neg h, if_neg h]
      by_cases h2 : j = nd
      · subst h2; simp
      · rw [if_neg h2, if_neg (by simp; omega)]
        rfl
  obtain ⟨z', hz', hl, hax, hat⟩ := moveaxis_right (addTrailingAxes z nd) (f := nd) (t := 0)
    (by rw [hzl]; omega) (by rw [hzl]; omega)
  refine ⟨z', ?_, ⟨?_, fun j => ?_⟩, by omega, ?_, fun κ d p => ?_⟩
  · unfold gateZ
    rw [← hz']
    congr 1
    omega
  · rw [hl, hzl]
    have := hS.1
    simp only [List.length_append, List.length_singleton]
    omega
  · rw [hax, hzax, axisLen_append, axisLen_append, axisLen_single]
    have := hS.2 (j - nd - 1)
    simp only [List.length_singleton]
    by_cases h0 : j = 0
    · subst h0
      right
      simp [movedAt]
    · by_cases h1 : j ≤ nd
      · left
        have : movedAt nd 0 j = j - 1 := by unfold movedAt; split <;> (repeat' split) <;> omega
        rw [this, if_pos (by omega)]
      · have : movedAt nd 0 j = j := by unfold movedAt; split <;> (repeat' split) <;> omega
        rw [this, if_neg (by omega), if_neg (by omega), if_neg (by omega), if_neg (by omega),
          show j - 1 - dims.length = j - nd - 1 by omega]
        exact hS.2 _
  · rw [hax, hzax]
    simp [movedAt]
  · rw [hat, addTrailingAxes_at]
    congr 1
    funext k
    cases k with
    | zero =>
      have : movedAt 0 nd (0 + nd) = 0 := by unfold movedAt; split <;> (repeat' split) <;> omega
      rw [this]
      rfl
    | succ k =>
      have : movedAt 0 nd (k + 1 + nd) = (k + nd) + 1 := by unfold movedAt; split <;> (repeat' split) <;> omega
      rw [this]
      show joinC nd d p (k + nd) = p k
      unfold joinC
      rw [if_neg (by omega), Nat.add_sub_cancel]

theorem joinC_lt {n k : Nat} (d p : Nat → Nat) (h : k < n) : joinC n d p k = d k := by
  unfold joinC; rw [if_pos h]

theorem joinC_ge {n k : Nat} (d p : Nat → Nat) (h : ¬ k < n) : joinC n d p k = p (k - n) := by
  unfold joinC; rw [if_neg h]

theorem natAbs_gated (g nd : Nat) : (-((g : Int) + 1) - nd).natAbs = g + 1 + nd := by omega

/-- The moments of `X` with the gated axis last. -/
theorem gateX_ok {x : Arr α} (hg : g ≤ P.length) (hx : BroadcastsTo x.shape (insAxis g K P ++ dims)) :
    ∃ x', gateX g dims.length x = .ok x' ∧ BroadcastsTo x'.shape (P ++ dims ++ [K]) ∧
      ∀ κ d p, x'.at (consC κ (joinC dims.length d p)) = x.at (joinC dims.length d (insC g κ p)) := by
  have hxl := hx.1
  rw [List.length_append, length_insAxis] at hxl
  have hxax : ∀ j, axisLen x.shape j = 1 ∨ axisLen x.shape j = if j < dims.length then axisLen dims j else
      if j - dims.length < g then axisLen P (j - dims.length) else
        if j - dims.length = g then K else axisLen P (j - dims.length - 1) := by
    intro j
    rw [← axisLen_insAxis hg, ← axisLen_append]
    exact hx.2 j
  set nd := dims.length with hnd
  unfold gateX
  rw [natAbs_gated]
  by_cases hlt : x.shape.length < g + 1 + nd
  · rw [if_pos hlt]
    refine ⟨_, rfl, ⟨?_, fun j => ?_⟩, fun κ d p => ?_⟩
    · show (x.shape ++ List.replicate 1 1).length ≤ _
      simp only [List.length_append, List.length_replicate, List.length_singleton]
      omega
    · rw [axisLen_addTrailingAxes, axisLen_append, axisLen_append, axisLen_single]
      simp only [List.length_singleton]
      by_cases h0 : j < 1
      · left; rw [if_pos h0]
      · rw [if_neg h0, if_neg h0]
        by_cases h2 : j - 1 < g + nd
        · have := hxax (j - 1)
          by_cases h1 : j - 1 < nd
          · rw [if_pos h1] at this ⊢
            exact this
          · rw [if_neg h1] at this ⊢
            rwa [if_pos (by omega)] at this
        · left; exact axisLen_of_ge (by omega)
    · rw [addTrailingAxes_at]
      apply x.at_congr
      intro k hk
      show joinC nd d p k = _
      by_cases h1 : k < nd
      · rw [joinC_lt _ _ h1, joinC_lt _ _ h1]
      · rw [joinC_ge _ _ h1, joinC_ge _ _ h1]
        unfold insC
        by_cases h2 : k - nd < g
        · rw [if_pos h2]
        · exact absurd (axisLen_of_ge (by omega)) hk
  · rw [if_neg hlt]
    obtain ⟨x', hx', hl, hax, hat⟩ := moveaxis_right x (f := g + nd) (t := 0) (by omega) (by omega)
    have e : -(((g + nd : Nat) : Int) + 1) = -((g : Int) + 1) - nd := by push_cast; ring
    rw [e] at hx'
    refine ⟨x', hx', ⟨?_, fun j => ?_⟩, fun κ d p => ?_⟩
    · rw [hl]
      simp only [List.length_append, List.length_singleton]
      omega
    · rw [hax, axisLen_append, axisLen_append, axisLen_single]
      simp only [List.length_singleton]
      by_cases h0 : j = 0
      · subst h0
        have : movedAt (g + nd) 0 0 = g + nd := by simp [movedAt]
        rw [this, if_pos (by omega), if_pos rfl]
        have := hxax (g + nd)
        rwa [if_neg (by omega), if_neg (by omega), if_pos (by omega)] at this
      · rw [if_neg (show ¬ j < 1 by omega)]
        by_cases h1 : j ≤ g + nd
        · have : movedAt (g + nd) 0 j = j - 1 := by unfold movedAt; split <;> (repeat' split) <;> omega
          rw [this]
          have := hxax (j - 1)
          by_cases h2 : j - 1 < nd
          · rw [if_pos h2] at this ⊢
            exact this
          · rw [if_neg h2] at this ⊢
            rwa [if_pos (by omega)] at this
        · have : movedAt (g + nd) 0 j = j := by unfold movedAt; split <;> (repeat' split) <;> omega
          rw [this, if_neg (show ¬ j - 1 < nd by omega)]
          have := hxax j
          rw [if_neg (by omega), if_neg (by omega), if_neg (by omega)] at this
          rwa [show j - 1 - dims.length = j - nd - 1 by omega]
    · rw [hat]
      congr 1
      funext k
      by_cases h1 : k < g + nd
      · have : movedAt 0 (g + nd) k = k + 1 := by unfold movedAt; split <;> (repeat' split) <;> omega
        rw [this]
        show joinC nd d p k = _
        by_cases h2 : k < nd
        · rw [joinC_lt _ _ h2, joinC_lt _ _ h2]
        · rw [joinC_ge _ _ h2, joinC_ge _ _ h2]
          unfold insC
          rw [if_pos (by omega)]
      · by_cases h3 : k = g + nd
        · have : movedAt 0 (g + nd) k = 0 := by unfold movedAt; split <;> (repeat' split) <;> omega
          rw [this, joinC_ge _ _ (by omega)]
          unfold insC
          rw [if_neg (by omega), if_pos (by omega)]
          rfl
        · have : movedAt 0 (g + nd) k = (k - 1) + 1 := by unfold movedAt; split <;> (repeat' split) <;> omega
          rw [this]
          show joinC nd d p (k - 1) = _
          rw [joinC_ge _ _ (by omega), joinC_ge _ _ (by omega)]
          unfold insC
          rw [if_neg (by omega), if_neg (by omega)]
          congr 1
          omega

end

theorem drop_eq_of_axisLen {B dims : List Nat} (hl : dims.length ≤ B.length)
    (h : ∀ k < dims.length, axisLen B k = axisLen dims k) : B.drop (B.length - dims.length) = dims := by
  apply List.ext_getElem
  · simp; omega
  · intro p h1 h2
    have := h (dims.length - 1 - p) (by omega)
    unfold axisLen at this
    rw [List.getElem?_reverse (by omega), List.getElem?_reverse (by omega),
      show dims.length - 1 - (dims.length - 1 - p) = p by omega,
      List.getElem?_eq_getElem (by omega), List.getElem?_eq_getElem (by omega)] at this
    simp only [Option.getD_some] at this
    rw [List.getElem_drop, ← this]
    congr 1
    omega

theorem BroadcastsTo.take {B Q dims : List Nat} (h : BroadcastsTo B (Q ++ dims)) (hl : dims.length ≤ B.length) :
    BroadcastsTo (B.take (B.length - dims.length)) Q := by
  refine ⟨?_, fun k => ?_⟩
  · have := h.1
    simp at this ⊢
    omega
  · have h1 := h.2 (k + dims.length)
    have h2 := axisLen_append (B.take (B.length - dims.length)) (B.drop (B.length - dims.length)) (k + dims.length)
    rw [List.take_append_drop] at h2
    have e : (B.drop (B.length - dims.length)).length = dims.length := by simp; omega
    rw [h2, e, axisLen_append, if_neg (by omega), if_neg (by omega), Nat.add_sub_cancel] at h1
    exact h1

/-- Sum over the last axes of a product of two arrays, one of which has them in full. -/
theorem sumMultiply_last {α : Type} [CommSemiring α] {a b : Arr α} {Q dims : List Nat}
    (ha : BroadcastsTo a.shape (Q ++ dims)) (hb : BroadcastsTo b.shape (Q ++ dims))
    (hfull : (dims.length ≤ a.shape.length ∧ ∀ k < dims.length, axisLen a.shape k = axisLen dims k) ∨
      (dims.length ≤ b.shape.length ∧ ∀ k < dims.length, axisLen b.shape k = axisLen dims k)) :
    (∃ y, sumMultiply [a, b] (.seq (lastAxes dims.length)) true false = .ok y ∧ BroadcastsTo y.shape Q ∧
      ∀ p, ValidIn Q p → y.at p =
        sumOver dims fun d => a.at (joinC dims.length d p) * b.at (joinC dims.length d p)) ∧
    (dims.length = 1 → ∃ y, sumMultiply [a, b] (.scalar (-1)) true false = .ok y ∧ BroadcastsTo y.shape Q ∧
      ∀ p, ValidIn Q p → y.at p =
        sumOver dims fun d => a.at (joinC dims.length d p) * b.at (joinC dims.length d p)) := by
  obtain ⟨B, hB, hBQ⟩ := isBroadcast_of_common ha hb
  have hl : dims.length ≤ B.length := by
    rcases hfull with h | h
    · exact le_trans h.1 (hB.rank_ge _ (by simp))
    · exact le_trans h.1 (hB.rank_ge _ (by simp))
  have hBax : ∀ k < dims.length, axisLen B k = axisLen dims k := by
    intro k hk
    have h1 := hBQ.2 k
    rw [axisLen_append, if_pos hk] at h1
    have h2 : axisLen dims k = 1 ∨ axisLen dims k = axisLen B k := by
      rcases hfull with h | h
      · rw [← h.2 k hk]; exact hB.fits k _ (by simp)
      · rw [← h.2 k hk]; exact hB.fits k _ (by simp)
    omega
  have hdrop := drop_eq_of_axisLen hl hBax
  have fin : ∀ (S : Nat → Prop) [DecidablePred S] (y : Arr α),
      (∀ p < B.length, S p ↔ B.length - dims.length ≤ p) → ReductionOf [a, b] B S false y →
      BroadcastsTo y.shape Q ∧ ∀ p, ValidIn Q p → y.at p =
        sumOver dims fun d => a.at (joinC dims.length d p) * b.at (joinC dims.length d p) := by
    intro S _ y hS hy
    obtain ⟨h1, h2⟩ := sumLast_of_reduction (args := [a, b]) hl hB hS hy
    have hyQ : BroadcastsTo y.shape Q := by rw [h1]; exact BroadcastsTo.take hBQ hl
    refine ⟨hyQ, fun p hp => ?_⟩
    rw [h2 Q p hyQ hp, hdrop]
    simp
  constructor
  · obtain ⟨y, hy, hred⟩ := C06_sum_axes_partial [a, b] B (lastAxes dims.length) false (by simp) hB
    exact ⟨y, hy, fin _ y (fun p hp => names_lastAxes hl hp) hred⟩
  · intro h1
    obtain ⟨y, hy, hred⟩ := C06_sum_scalar_axis_partial [a, b] B (-1) false (by simp) hB
    refine ⟨y, hy, fin _ y (fun p hp => ?_) hred⟩
    unfold Names
    omega

section
variable {α : Type} [CommSemiring α] {P dims S Sz Sx : List Nat} {g K : Nat}

/-- **C15** The moments of the gate: `u(p) = Σ_k z_k(p) x_k(p)`. -/
theorem C15_moments {z x : Arr α} (hg : g ≤ P.length) (hz : z.shape = Sz ++ [K]) (hSz : BroadcastsTo Sz P)
    (hx : BroadcastsTo x.shape (insAxis g K P ++ dims)) :
    ∃ v, gateMoments g dims.length z x = .ok v ∧ BroadcastsTo v.shape (P ++ dims) ∧
      ∀ d p, ValidIn dims d → ValidIn P p → v.at (joinC dims.length d p) =
        ∑ k ∈ Finset.range K, z.at (consC k p) * x.at (joinC dims.length d (insC g k p)) := by
  obtain ⟨z', hz', hzb, hzl, hz0, hzat⟩ := gateZ_ok (dims := dims) hz hSz
  obtain ⟨x', hx', hxb, hxat⟩ := gateX_ok hg hx
  obtain ⟨y, hy, hyb, hyat⟩ := (sumMultiply_last hzb hxb (.inl ⟨hzl, fun k hk => by
    have : k = 0 := by simpa using hk
    subst this
    rw [hz0, axisLen_single, if_pos rfl]⟩)).2 rfl
  refine ⟨y, ?_, hyb, fun d p hd hp => ?_⟩
  · unfold gateMoments
    rw [hz']
    simp only [bind, Except.bind]
    rw [hx']
    exact hy
  · rw [hyat _ (validIn_joinC hd hp), sumOver_singleton]
    apply Finset.sum_congr rfl
    intro k _
    simp only [List.length_singleton]
    rw [joinC_one, Function.update_self, hzat, hxat]

/-- **C15** The message to `X`: `m_k(p) = z_k(p) m(p)`. -/
theorem C15_message_X {z c : Arr α} (hg : g ≤ P.length) (hz : z.shape = Sz ++ [K]) (hSz : BroadcastsTo Sz P)
    (hc : BroadcastsTo c.shape (P ++ dims)) :
    ∃ y, gateMessageX g dims.length c z = .ok y ∧ BroadcastsTo y.shape (insAxis g K P ++ dims) ∧
      ∀ d p k, y.at (joinC dims.length d (insC g k p)) = z.at (consC k p) * c.at (joinC dims.length d p) := by
  obtain ⟨z', hz', hzb, hzl, hz0, hzat⟩ := gateZ_ok (dims := dims) hz hSz
  set nd := dims.length with hnd
  have hcb : BroadcastsTo (addTrailingAxes c 1).shape (P ++ dims ++ [K]) := by
    refine ⟨?_, fun j => ?_⟩
    · have := hc.1
      show (c.shape ++ List.replicate 1 1).length ≤ _
      simp at this ⊢
      omega
    · rw [axisLen_addTrailingAxes, axisLen_append]
      by_cases h : j < 1
      · left; rw [if_pos h]
      · rw [if_neg h, if_neg (by simpa using h)]
        exact hc.2 _
  obtain ⟨mi, hmi, _, hmb, hmat⟩ := npMul_common hzb hcb
  -- leading axes
  obtain ⟨mj, hmj, hjax, hjl, hjlb, hjat⟩ : ∃ mj : Arr α, (if mi.shape.length < (-((g : Int) + 1) - nd).natAbs then
      addLeadingAxes mi ((-((g : Int) + 1) - nd).natAbs - mi.shape.length) else mi) = mj ∧
      (∀ j, axisLen mj.shape j = axisLen mi.shape j) ∧ g + 1 + nd ≤ mj.shape.length ∧
      mj.shape.length ≤ P.length + nd + 1 ∧ ∀ c, mj.at c = mi.at c := by
    have hml := hmb.1
    simp only [List.length_append, List.length_singleton] at hml
    rw [natAbs_gated]
    refine ⟨_, rfl, ?_⟩
    split
    · have hax : ∀ j, axisLen (addLeadingAxes mi (g + 1 + nd - mi.shape.length)).shape j = axisLen mi.shape j := by
        intro j
        show axisLen (List.replicate _ 1 ++ mi.shape) j = _
        rw [axisLen_append]
        split
        · rfl
        · rw [axisLen_of_ge (s := mi.shape) (by omega)]
          unfold axisLen
          rw [List.reverse_replicate, List.getElem?_replicate]
          split <;> rfl
      refine ⟨hax, ?_, ?_, fun c => ?_⟩
      · show _ ≤ (List.replicate _ 1 ++ mi.shape).length
        simp
        omega
      · show (List.replicate _ 1 ++ mi.shape).length ≤ _
        simp
        omega
      · show mi.get _ = mi.get _
        congr 1
        funext k
        unfold restrict
        rw [hax]
    · exact ⟨fun _ => rfl, by omega, by omega, fun _ => rfl⟩
  obtain ⟨y, hy, hyl, hyax, hyat⟩ := moveaxis_right mj (f := 0) (t := g + nd) (by omega) (by omega)
  have e : -(((g + nd : Nat) : Int) + 1) = -((g : Int) + 1) - nd := by push_cast; ring
  rw [e] at hy
  refine ⟨y, ?_, ⟨?_, fun j => ?_⟩, fun d p k => ?_⟩
  · unfold gateMessageX
    rw [hz']
    simp only [bind, Except.bind]
    rw [hmi]
    simp only
    rw [hmj]
    exact hy
  · rw [hyl, List.length_append, length_insAxis]
    omega
  · rw [hyax, hjax, axisLen_append, axisLen_insAxis hg]
    by_cases h1 : j = g + nd
    · have : movedAt 0 (g + nd) j = 0 := by unfold movedAt; split <;> (repeat' split) <;> omega
      rw [this, if_neg (by omega), if_neg (by omega), if_pos (by omega)]
      have := hmb.2 0
      rwa [axisLen_append, axisLen_single, if_pos (by simp), if_pos rfl] at this
    · by_cases h2 : j < g + nd
      · have : movedAt 0 (g + nd) j = j + 1 := by unfold movedAt; split <;> (repeat' split) <;> omega
        rw [this]
        have := hmb.2 (j + 1)
        rw [axisLen_append, if_neg (by simp), List.length_singleton, Nat.add_sub_cancel, axisLen_append] at this
        by_cases h3 : j < nd
        · rw [if_pos h3] at this ⊢
          exact this
        · rw [if_neg h3] at this ⊢
          rw [if_pos (by omega)]
          exact this
      · have : movedAt 0 (g + nd) j = j := by unfold movedAt; split <;> (repeat' split) <;> omega
        rw [this, if_neg (by omega), if_neg (by omega), if_neg (by omega)]
        have := hmb.2 j
        rw [axisLen_append, if_neg (by simp; omega), List.length_singleton, axisLen_append,
          if_neg (by omega)] at this
        rwa [show j - dims.length - 1 = j - 1 - dims.length by omega]
  · rw [hyat, hjat]
    have hco : (fun q => joinC nd d (insC g k p) (movedAt (g + nd) 0 q)) = consC k (joinC nd d p) := by
      funext q
      cases q with
      | zero =>
        have : movedAt (g + nd) 0 0 = g + nd := by simp [movedAt]
        rw [this, joinC_ge _ _ (by omega)]
        unfold insC
        rw [if_neg (by omega), if_pos (by omega)]
        rfl
      | succ q =>
        show _ = joinC nd d p q
        by_cases h1 : q + 1 ≤ g + nd
        · have : movedAt (g + nd) 0 (q + 1) = q := by unfold movedAt; split <;> (repeat' split) <;> omega
          rw [this]
          by_cases h2 : q < nd
          · rw [joinC_lt _ _ h2, joinC_lt _ _ h2]
          · rw [joinC_ge _ _ h2, joinC_ge _ _ h2]
            unfold insC
            rw [if_pos (by omega)]
        · have : movedAt (g + nd) 0 (q + 1) = q + 1 := by unfold movedAt; split <;> (repeat' split) <;> omega
          rw [this, joinC_ge _ _ (by omega), joinC_ge _ _ (by omega)]
          unfold insC
          rw [if_neg (by omega), if_neg (by omega)]
          congr 1
          omega
    rw [hco, hmat, hzat, addTrailingAxes_at]
    rfl

theorem axisLen_npExpandDims_shape {s : List Nat} (hg : g ≤ s.length) (j : Nat) :
    axisLen (s.take (s.length - g) ++ [1] ++ s.drop (s.length - g)) j =
      if j < g then axisLen s j else if j = g then 1 else axisLen s (j - 1) :=
  axisLen_insAxis (K := 1) hg j

theorem npExpandDims_ok {β : Type} {X : Arr β} (hg : g ≤ X.shape.length) :
    ∃ Y, npExpandDims X g = .ok Y ∧ Y.shape.length = X.shape.length + 1 ∧
      (∀ j, axisLen Y.shape j = if j < g then axisLen X.shape j else if j = g then 1 else axisLen X.shape (j - 1)) ∧
      ∀ c, Y.at c = X.at fun k => if k < g then c k else c (k + 1) := by
  unfold npExpandDims
  rw [if_pos hg]
  refine ⟨_, rfl, ?_, axisLen_npExpandDims_shape hg, fun c => ?_⟩
  · simp; omega
  · show X.get _ = X.get _
    congr 1
    funext k
    unfold restrict
    simp only [axisLen_npExpandDims_shape hg]
    by_cases h : k < g
    · simp only [h, if_true]
    · have h2 : ¬ k + 1 < g := by omega
      have h3 : ¬ k + 1 = g := by omega
      simp only [h, h2, h3, if_false, Nat.add_sub_cancel]

theorem gateXBefore_ok {β : Type} {x : Arr β} (hg : g ≤ P.length) (hx : x.shape = S ++ dims)
    (hS : BroadcastsTo S (insAxis g K P)) :
    ∃ x', gateXBefore g dims.length x = .ok x' ∧ BroadcastsTo x'.shape (P ++ [K] ++ dims) ∧
      (dims.length ≤ x'.shape.length ∧ ∀ k < dims.length, axisLen x'.shape k = axisLen dims k) ∧
      ∀ κ d p, x'.at (joinC dims.length d (consC κ p)) = x.at (joinC dims.length d (insC g κ p)) := by
  set nd := dims.length with hnd
  have hxl : x.shape.length = S.length + nd := by rw [hx, List.length_append]
  have hSl := hS.1
  rw [length_insAxis] at hSl
  have hxax : ∀ j, axisLen x.shape j = if j < nd then axisLen dims j else axisLen S (j - nd) := by
    intro j; rw [hx, axisLen_append]
  have hSax : ∀ j, axisLen S j = 1 ∨
      axisLen S j = if j < g then axisLen P j else if j = g then K else axisLen P (j - 1) := by
    intro j
    rw [← axisLen_insAxis hg]
    exact hS.2 j
  have htgt : ∀ j, axisLen (P ++ [K] ++ dims) j =
      if j < nd then axisLen dims j else if j = nd then K else axisLen P (j - nd - 1) := by
    intro j
    rw [axisLen_append, axisLen_append, axisLen_single]
    by_cases h : j < nd
    · rw [if_pos h, if_pos h]
    · rw [if_neg h, if_neg h]
      by_cases h2 : j = nd
      · subst h2; simp [hnd]
      · rw [if_neg h2, if_neg (by simp; omega)]
        rfl
  unfold gateXBefore
  rw [natAbs_gated]
  by_cases hlt : x.shape.length < g + 1 + nd
  · rw [if_pos hlt]
    obtain ⟨x', hx', hl, hax, hat⟩ := npExpandDims_ok (X := x) (g := nd) (by omega)
    refine ⟨x', hx', ⟨?_, fun j => ?_⟩, ⟨by omega, fun k hk => ?_⟩, fun κ d p => ?_⟩
    · rw [hl]
      simp only [List.length_append, List.length_singleton]
      omega
    · rw [hax, htgt]
      by_cases h0 : j < nd
      · right; rw [if_pos h0, if_pos h0, hxax, if_pos h0]
      · rw [if_neg h0, if_neg h0]
        by_cases h1 : j = nd
        · left; rw [if_pos h1]
        · rw [if_neg h1, if_neg h1, hxax, if_neg (by omega)]
          by_cases h2 : j - 1 - nd < S.length
          · have := hSax (j - 1 - nd)
            rw [if_pos (by omega)] at this
            rwa [show j - nd - 1 = j - 1 - nd by omega]
          · left; exact axisLen_of_ge (by omega)
    · rw [hax, if_pos hk, hxax, if_pos hk]
    · rw [hat]
      apply x.at_congr
      intro k hk
      by_cases h1 : k < nd
      · rw [if_pos h1, joinC_lt _ _ h1, joinC_lt _ _ h1]
      · rw [if_neg h1, joinC_ge _ _ (by omega), joinC_ge _ _ h1]
        unfold insC
        by_cases h2 : k - nd < g
        · rw [if_pos h2, show k + 1 - nd = (k - nd) + 1 by omega]
          rfl
        · exact absurd (axisLen_of_ge (by omega)) hk
  · rw [if_neg hlt]
    obtain ⟨x', hx', hl, hax, hat⟩ := moveaxis_right x (f := g + nd) (t := nd) (by omega) (by omega)
    have e : -(((g + nd : Nat) : Int) + 1) = -((g : Int) + 1) - nd := by push_cast; ring
    have e' : -((nd : Int) + 1) = -(nd : Int) - 1 := by ring
    rw [e, e'] at hx'
    refine ⟨x', hx', ⟨?_, fun j => ?_⟩, ⟨by omega, fun k hk => ?_⟩, fun κ d p => ?_⟩
    · rw [hl]
      simp only [List.length_append, List.length_singleton]
      omega
    · rw [hax, htgt, hxax]
      by_cases h0 : j < nd
      · have : movedAt (g + nd) nd j = j := by unfold movedAt; split <;> (repeat' split) <;> omega
        right
        rw [this, if_pos h0, if_pos h0]
      · rw [if_neg h0]
        by_cases h1 : j = nd
        · have : movedAt (g + nd) nd j = g + nd := by unfold movedAt; split <;> (repeat' split) <;> omega
          rw [this, if_neg (by omega), if_pos h1]
          have := hSax g
          rw [if_neg (by omega), if_pos rfl] at this
          rwa [Nat.add_sub_cancel]
        · rw [if_neg h1]
          by_cases h2 : j ≤ g + nd
          · have : movedAt (g + nd) nd j = j - 1 := by unfold movedAt; split <;> (repeat' split) <;> omega
            rw [this, if_neg (by omega)]
            have := hSax (j - 1 - nd)
            rw [if_pos (by omega)] at this
            rwa [show j - nd - 1 = j - 1 - nd by omega]
          · have : movedAt (g + nd) nd j = j := by unfold movedAt; split <;> (repeat' split) <;> omega
            rw [this, if_neg (by omega)]
            have := hSax (j - nd)
            rw [if_neg (by omega), if_neg (by omega)] at this
            exact this
    · have : movedAt (g + nd) nd k = k := by unfold movedAt; split <;> (repeat' split) <;> omega
      rw [hax, this, hxax, if_pos hk]
    · rw [hat]
      congr 1
      funext k
      by_cases h2 : k < nd
      · have : movedAt nd (g + nd) k = k := by unfold movedAt; split <;> (repeat' split) <;> omega
        rw [this, joinC_lt _ _ h2, joinC_lt _ _ h2]
      · rw [joinC_ge _ (insC g κ p) h2]
        unfold insC
        by_cases h1 : k < g + nd
        · have : movedAt nd (g + nd) k = k + 1 := by unfold movedAt; split <;> (repeat' split) <;> omega
          rw [this, if_pos (by omega), joinC_ge _ _ (by omega), show k + 1 - nd = (k - nd) + 1 by omega]
          rfl
        · rw [if_neg (by omega)]
          by_cases h3 : k = g + nd
          · have : movedAt nd (g + nd) k = nd := by unfold movedAt; split <;> (repeat' split) <;> omega
            rw [this, if_pos (by omega), joinC_ge _ _ (by omega), Nat.sub_self]
            rfl
          · have : movedAt nd (g + nd) k = k := by unfold movedAt; split <;> (repeat' split) <;> omega
            rw [this, if_neg (by omega), joinC_ge _ _ h2, show k - nd = (k - nd - 1) + 1 by omega]
            rfl

/-- One summand of the message to `Z`. -/
theorem gateMessageZ1_ok {c x : Arr α} (hg : g ≤ P.length) (hc : BroadcastsTo c.shape (P ++ dims))
    (hcl : dims.length ≤ c.shape.length)
    (hx : x.shape = Sx ++ dims) (hSx : BroadcastsTo Sx (insAxis g K P)) :
    ∃ y, gateMessageZ1 g dims.length c x = .ok y ∧ BroadcastsTo y.shape (P ++ [K]) ∧
      ∀ k p, k < K → ValidIn P p → y.at (consC k p) = sumOver dims fun d =>
        c.at (joinC dims.length d p) * x.at (joinC dims.length d (insC g k p)) := by
  obtain ⟨x', hx', hxb, hxf, hxat⟩ := gateXBefore_ok hg hx hSx
  have hl1 : (addTrailingAxes c 1).shape.length = c.shape.length + 1 := by
    show (c.shape ++ List.replicate 1 1).length = _
    simp
  obtain ⟨c', hc', hl, hax, hat⟩ := moveaxis_right (addTrailingAxes c 1) (f := 0) (t := dims.length)
    (by omega) (by omega)
  have hcb : BroadcastsTo c'.shape (P ++ [K] ++ dims) := by
    refine ⟨?_, fun j => ?_⟩
    · have := hc.1
      rw [hl, hl1]
      simp only [List.length_append, List.length_singleton] at this ⊢
      omega
    · rw [hax, axisLen_addTrailingAxes, axisLen_append]
      by_cases h1 : j < dims.length
      · have e : movedAt 0 dims.length j = j + 1 := by unfold movedAt; split <;> (repeat' split) <;> omega
        rw [e, if_neg (by omega), if_pos h1, Nat.add_sub_cancel]
        have := hc.2 j
        rwa [axisLen_append, if_pos h1] at this
      · rw [if_neg h1]
        by_cases h2 : j = dims.length
        · have e : movedAt 0 dims.length j = 0 := by unfold movedAt; split <;> (repeat' split) <;> omega
          left
          rw [e, if_pos (by omega)]
        · have e : movedAt 0 dims.length j = j := by unfold movedAt; split <;> (repeat' split) <;> omega
          rw [e, if_neg (by omega), axisLen_append, if_neg (by simp; omega)]
          have := hc.2 (j - 1)
          rw [axisLen_append, if_neg (by omega)] at this
          rwa [List.length_singleton, show j - dims.length - 1 = j - 1 - dims.length by omega]
  have hcat : ∀ κ d p, c'.at (joinC dims.length d (consC κ p)) = c.at (joinC dims.length d p) := by
    intro κ d p
    rw [hat, addTrailingAxes_at]
    congr 1
    funext k
    by_cases h1 : k < dims.length
    · have e : movedAt dims.length 0 (k + 1) = k := by unfold movedAt; split <;> (repeat' split) <;> omega
      rw [e, joinC_lt _ _ h1, joinC_lt _ _ h1]
    · have e : movedAt dims.length 0 (k + 1) = k + 1 := by unfold movedAt; split <;> (repeat' split) <;> omega
      rw [e, joinC_ge _ _ (by omega), joinC_ge _ _ h1, show k + 1 - dims.length = (k - dims.length) + 1 by omega]
      rfl
  obtain ⟨y, hy, hyb, hyat⟩ := (sumMultiply_last hcb hxb (.inr hxf)).1
  refine ⟨y, ?_, hyb, fun k p hk hp => ?_⟩
  · unfold gateMessageZ1
    rw [show -(dims.length : Int) - 1 = -((dims.length : Int) + 1) by ring]
    rw [show (-1 : Int) = -(((0 : Nat) : Int) + 1) by rfl, hc']
    simp only [bind, Except.bind]
    rw [hx']
    exact hy
  · rw [hyat _ (validIn_consC hk hp)]
    apply sumOver_congr
    intro d _
    rw [hcat, hxat]

/-- What the message to `Z` is computed from: for each moment, its shape, the message from the children and
the moment of `X`. -/
structure GateTerm (α : Type) where
  dims : List Nat
  c : Arr α
  x : Arr α

/-- The shapes of a gate with plates `P`, `K` clusters and `g` axes after the gated one. -/
structure GateTerm.Fits (P : List Nat) (g K : Nat) (t : GateTerm α) : Prop where
  message : BroadcastsTo t.c.shape (P ++ t.dims)
  full : t.dims.length ≤ t.c.shape.length
  input : ∃ S, t.x.shape = S ++ t.dims ∧ BroadcastsTo S (insAxis g K P)

theorem gateMessageZ_fold (hg : g ≤ P.length) (ts : List (GateTerm α)) (hts : ∀ t ∈ ts, t.Fits P g K)
    (m0 : Arr α) (hm0 : BroadcastsTo m0.shape (P ++ [K])) :
    ∃ y, (ts.map fun t => (t.dims.length, t.c, t.x)).foldlM
        (fun m0 t => do npAdd m0 (← gateMessageZ1 g t.1 t.2.1 t.2.2)) m0 = Except.ok (ε := PyErr) y ∧
      BroadcastsTo y.shape (P ++ [K]) ∧
      ∀ k p, k < K → ValidIn P p → y.at (consC k p) = m0.at (consC k p) +
        (ts.map fun t => sumOver t.dims fun d =>
          t.c.at (joinC t.dims.length d p) * t.x.at (joinC t.dims.length d (insC g k p))).sum := by
  induction ts generalizing m0 with
  | nil => exact ⟨m0, rfl, hm0, fun k p _ _ => by simp⟩
  | cons t ts ih =>
    obtain ⟨hmsg, hfull, S, hx, hS⟩ := hts t (by simp)
    obtain ⟨y1, hy1, hb1, hat1⟩ := gateMessageZ1_ok hg hmsg hfull hx hS
    obtain ⟨m1, hm1, _, hmb, hmat⟩ := npAdd_common hm0 hb1
    obtain ⟨y, hy, hyb, hyat⟩ := ih (fun t ht => hts t (List.mem_cons_of_mem _ ht)) m1 hmb
    refine ⟨y, ?_, hyb, fun k p hk hp => ?_⟩
    · rw [List.map_cons, List.foldlM_cons]
      simp only [bind, Except.bind]
      rw [hy1]
      simp only
      rw [hm1]
      exact hy
    · rw [hyat k p hk hp, hmat, hat1 k p hk hp, List.map_cons, List.sum_cons, add_assoc]

/-- **C15** The message to `Z`: `m_k(p) = Σ_i <m_i(p), x_{i,k}(p)>`; it has `K` elements along the last
axis. -/
theorem C15_message_Z (hg : g ≤ P.length) (ts : List (GateTerm α)) (hts : ∀ t ∈ ts, t.Fits P g K) :
    ∃ y, gateMessageZ g K (ts.map fun t => (t.dims.length, t.c, t.x)) = .ok y ∧
      BroadcastsTo y.shape (P ++ [K]) ∧ y.shape ≠ [] ∧ axisLen y.shape 0 = K ∧
      ∀ k p, k < K → ValidIn P p → y.at (consC k p) =
        (ts.map fun t => sumOver t.dims fun d =>
          t.c.at (joinC t.dims.length d p) * t.x.at (joinC t.dims.length d (insC g k p))).sum := by
  obtain ⟨m0, hm0, hb0, hat0⟩ := gateMessageZ_fold hg ts hts (Arr.mk [] fun _ => 0)
    ⟨by simp, fun k => .inl (by simp [axisLen])⟩
  have hone : BroadcastsTo [K] (P ++ [K]) :=
    ⟨by simp, fun k => by rw [axisLen_append, axisLen_single]; simp only [List.length_singleton]; split <;> simp_all⟩
  obtain ⟨y, hy, hyB, hyb, hyat⟩ := npMul_common (Y := (Arr.mk [K] fun _ => (1 : α))) hb0 hone
  refine ⟨y, ?_, hyb, ?_, ?_, fun k p hk hp => ?_⟩
  · unfold gateMessageZ
    simp only [bind, Except.bind] at hm0 ⊢
    rw [hm0]
    exact hy
  · intro h
    have := hyB.rank_ge [K] (by simp)
    rw [h] at this
    simp at this
  · have h1 := hyB.fits 0 [K] (by simp)
    have h2 := hyb.2 0
    rw [axisLen_append, if_pos (by simp), axisLen_single, if_pos rfl] at h2
    rw [axisLen_single, if_pos rfl] at h1
    omega
  · rw [hyat, hat0 k p hk hp]
    show ((0 : α) + _) * 1 = _
    rw [zero_add, mul_one]

/-- **C15** If the probabilities of the element `p` are one for the cluster `k` and zero otherwise, then the
moments are those of the input `k`, and the message to every other input is zero. -/
theorem C15_one_hot {z x c : Arr α} (hg : g ≤ P.length) (hz : z.shape = Sz ++ [K]) (hSz : BroadcastsTo Sz P)
    (hx : BroadcastsTo x.shape (insAxis g K P ++ dims)) (hc : BroadcastsTo c.shape (P ++ dims))
    (p : Nat → Nat) (hp : ValidIn P p) (k : Nat) (hk : k < K)
    (hone : ∀ j < K, z.at (consC j p) = if j = k then 1 else 0) :
    ∃ v y, gateMoments g dims.length z x = .ok v ∧ gateMessageX g dims.length c z = .ok y ∧
      ∀ d, ValidIn dims d → v.at (joinC dims.length d p) = x.at (joinC dims.length d (insC g k p)) ∧
        y.at (joinC dims.length d (insC g k p)) = c.at (joinC dims.length d p) ∧
        ∀ j < K, j ≠ k → y.at (joinC dims.length d (insC g j p)) = 0 := by
  obtain ⟨v, hv, _, hvat⟩ := C15_moments hg hz hSz hx
  obtain ⟨y, hy, _, hyat⟩ := C15_message_X hg hz hSz hc
  refine ⟨v, y, hv, hy, fun d hd => ⟨?_, ?_, fun j hj hjk => ?_⟩⟩
  · rw [hvat d p hd hp, Finset.sum_eq_single k]
    · rw [hone k hk, if_pos rfl, one_mul]
    · intro j hj hjk
      rw [hone j (Finset.mem_range.1 hj), if_neg hjk, zero_mul]
    · intro h
      exact absurd (Finset.mem_range.2 hk) h
  · rw [hyat, hone k hk, if_pos rfl, one_mul]
  · rw [hyat, hone j hj, if_neg hjk, zero_mul]

theorem sumOver_insAxis (hg : g ≤ P.length) (f : (Nat → Nat) → α) :
    sumOver (insAxis g K P) f = sumOver P fun p => ∑ k ∈ Finset.range K, f (insC g k p) := by
  have hl : (P.drop (P.length - g)).length = g := by simp; omega
  unfold insAxis
  conv_rhs => rw [← List.take_append_drop (P.length - g) P]
  rw [sumOver_append, sumOver_snoc, sumOver_append]
  congr 1
  funext p
  rw [hl, ← sumOver_sum]
  congr 1
  funext d
  apply Finset.sum_congr rfl
  intro k _
  congr 1
  funext j
  unfold joinC insC
  beta_reduce
  by_cases h1 : j < g
  · rw [if_pos h1, if_pos h1, if_pos h1]
  · rw [if_neg h1, if_neg h1]
    by_cases h2 : j = g
    · rw [if_pos h2, h2, Nat.sub_self]
      rfl
    · rw [if_neg h2, if_neg (by omega), show j - g = (j - 1 - g) + 1 by omega]
      rfl

theorem sumOver_listSum {ι : Type} (s : List Nat) (l : List ι) (f : ι → (Nat → Nat) → α) :
    sumOver s (fun c => (l.map fun t => f t c).sum) = (l.map fun t => sumOver s (f t)).sum := by
  induction l with
  | nil => simp [sumOver_zero]
  | cons a l ih => simp only [List.map_cons, List.sum_cons]; rw [sumOver_add, ih]

/-- The coordinates of the sum are within the shape. -/
theorem sumOver_congr_valid {s : List Nat} {f f' : (Nat → Nat) → α} (h : ∀ c, ValidIn s c → f c = f' c) :
    sumOver s f = sumOver s f' :=
  sumOver_congr _ fun i hi => h _ (coord_valid hi)

/-- **C15** `<m_child, u> = <m_Z, z> = <m_X, x>`, summed over the moments of the node. -/
theorem C15_adjoint {z : Arr α} (hg : g ≤ P.length) (hz : z.shape = Sz ++ [K]) (hSz : BroadcastsTo Sz P)
    (ts : List (GateTerm α)) (hts : ∀ t ∈ ts, t.Fits P g K) :
    ∃ (mZ : Arr α) (V Y : GateTerm α → Arr α),
      gateMessageZ g K (ts.map fun t => (t.dims.length, t.c, t.x)) = .ok mZ ∧
      (∀ t ∈ ts, gateMoments g t.dims.length z t.x = .ok (V t)) ∧
      (∀ t ∈ ts, gateMessageX g t.dims.length t.c z = .ok (Y t)) ∧
      (ts.map fun t => sumOver (P ++ t.dims) fun e => t.c.at e * (V t).at e).sum =
        sumOver (P ++ [K]) (fun e => mZ.at e * z.at e) ∧
      (ts.map fun t => sumOver (P ++ t.dims) fun e => t.c.at e * (V t).at e).sum =
        (ts.map fun t => sumOver (insAxis g K P ++ t.dims) fun e => (Y t).at e * t.x.at e).sum := by
  obtain ⟨mZ, hmZ, _, _, _, hmZat⟩ := C15_message_Z hg ts hts
  have hV : ∀ t : GateTerm α, ∃ v, t ∈ ts → gateMoments g t.dims.length z t.x = .ok v ∧
      ∀ d p, ValidIn t.dims d → ValidIn P p → v.at (joinC t.dims.length d p) =
        ∑ k ∈ Finset.range K, z.at (consC k p) * t.x.at (joinC t.dims.length d (insC g k p)) := by
    intro t
    by_cases ht : t ∈ ts
    · obtain ⟨_, _, S, hx, hS⟩ := hts t ht
      have hxb : BroadcastsTo t.x.shape (insAxis g K P ++ t.dims) := by
        refine ⟨by rw [hx]; simpa using hS.1, fun k => ?_⟩
        rw [hx, axisLen_append, axisLen_append]
        split
        · exact .inr rfl
        · exact hS.2 _
      obtain ⟨v, hv, _, hvat⟩ := C15_moments hg hz hSz hxb
      exact ⟨v, fun _ => ⟨hv, hvat⟩⟩
    · exact ⟨z, fun h => absurd h ht⟩
  have hY : ∀ t : GateTerm α, ∃ y, t ∈ ts → gateMessageX g t.dims.length t.c z = .ok y ∧
      ∀ d p k, y.at (joinC t.dims.length d (insC g k p)) = z.at (consC k p) * t.c.at (joinC t.dims.length d p) := by
    intro t
    by_cases ht : t ∈ ts
    · obtain ⟨y, hy, _, hyat⟩ := C15_message_X hg hz hSz (hts t ht).message
      exact ⟨y, fun _ => ⟨hy, hyat⟩⟩
    · exact ⟨z, fun h => absurd h ht⟩
  choose V hV using hV
  choose Y hY using hY
  refine ⟨mZ, V, Y, hmZ, fun t ht => (hV t ht).1, fun t ht => (hY t ht).1, ?_, ?_⟩
  · rw [sumOver_snoc]
    have : ∀ p, ValidIn P p → (∑ k ∈ Finset.range K, mZ.at (consC k p) * z.at (consC k p)) =
        (ts.map fun t => sumOver t.dims fun d =>
          t.c.at (joinC t.dims.length d p) * (V t).at (joinC t.dims.length d p)).sum := by
      intro p hp
      have h1 : ∀ k ∈ Finset.range K, mZ.at (consC k p) * z.at (consC k p) =
          (ts.map fun t => sumOver t.dims fun d => t.c.at (joinC t.dims.length d p) *
            (z.at (consC k p) * t.x.at (joinC t.dims.length d (insC g k p)))).sum := by
        intro k hk
        rw [hmZat k p (Finset.mem_range.1 hk) hp, ← List.sum_map_mul_right]
        congr 1
        apply List.map_congr_left
        intro t _
        rw [← sumOver_mul_right]
        congr 1
        funext d
        ring
      rw [Finset.sum_congr rfl h1]
      clear h1 hmZat hmZ
      have h2 : ∀ t ∈ ts, (sumOver t.dims fun d =>
          t.c.at (joinC t.dims.length d p) * (V t).at (joinC t.dims.length d p)) =
          ∑ k ∈ Finset.range K, sumOver t.dims fun d => t.c.at (joinC t.dims.length d p) *
            (z.at (consC k p) * t.x.at (joinC t.dims.length d (insC g k p))) := by
        intro t ht
        rw [← sumOver_sum]
        apply sumOver_congr_valid
        intro d hd
        rw [(hV t ht).2 d p hd hp, Finset.mul_sum]
      rw [List.map_congr_left h2]
      generalize ts = l
      induction l with
      | nil => simp
      | cons a l ih => simp only [List.map_cons, List.sum_cons]; rw [Finset.sum_add_distrib, ih]
    rw [sumOver_congr_valid this, sumOver_listSum]
    congr 1
    apply List.map_congr_left
    intro t _
    rw [sumOver_append]
  · congr 1
    apply List.map_congr_left
    intro t ht
    rw [sumOver_append, sumOver_append, sumOver_insAxis hg]
    apply sumOver_congr_valid
    intro p hp
    rw [← sumOver_sum]
    apply sumOver_congr_valid
    intro d hd
    rw [(hV t ht).2 d p hd hp, Finset.mul_sum]
    apply Finset.sum_congr rfl
    intro k _
    rw [(hY t ht).2]
    ring

end

/-- **C15** The mask for `X`: the element `insC g k p` of `X` has the mask of the element `p` of the node. -/
theorem C15_mask {α : Type} {P : List Nat} {g K : Nat} (hg : g ≤ P.length) (w : Arr α)
    (hw : BroadcastsTo w.shape P) :
    ∃ y, gateWeightsX g w = .ok y ∧ BroadcastsTo y.shape (insAxis g K P) ∧ ∀ k p, y.at (insC g k p) = w.at p := by
  have hwl := hw.1
  unfold gateWeightsX
  by_cases h : w.shape.length ≥ g + 1
  · rw [if_pos h]
    obtain ⟨y, hy, hl, hax, hat⟩ := npExpandDims_ok (X := w) (g := g) (by omega)
    refine ⟨y, hy, ⟨by rw [hl, length_insAxis]; omega, fun j => ?_⟩, fun k p => ?_⟩
    · rw [hax, axisLen_insAxis hg]
      by_cases h1 : j < g
      · rw [if_pos h1, if_pos h1]; exact hw.2 j
      · rw [if_neg h1, if_neg h1]
        by_cases h2 : j = g
        · rw [if_pos h2]; exact .inl rfl
        · rw [if_neg h2, if_neg h2]; exact hw.2 _
    · rw [hat]
      congr 1
      funext j
      unfold insC
      by_cases h1 : j < g
      · rw [if_pos h1, if_pos h1]
      · rw [if_neg h1, if_neg (by omega), if_neg (by omega), Nat.add_sub_cancel]
  · rw [if_neg h]
    refine ⟨w, rfl, ⟨by rw [length_insAxis]; omega, fun j => ?_⟩, fun k p => ?_⟩
    · rw [axisLen_insAxis hg]
      by_cases h1 : j < g
      · rw [if_pos h1]; exact hw.2 j
      · exact .inl (axisLen_of_ge (by omega))
    · apply w.at_congr
      intro j hj
      unfold insC
      by_cases h1 : j < g
      · rw [if_pos h1]
      · exact absurd (axisLen_of_ge (by omega)) hj

/-- **C15** The plates of `X` are those of the node with the gated axis, and vice versa. -/
theorem C15_plates {P : List Nat} {g K : Nat} (hg : g ≤ P.length) :
    gatePlatesToX g K P = insAxis g K P ∧ gatePlatesFromX g (insAxis g K P) = P := by
  constructor
  · unfold gatePlatesToX pyInsert insAxis
    simp only
    rw [if_neg (by omega), show ((P.length : Int) - g).toNat = P.length - g by omega]
  · unfold gatePlatesFromX
    rw [if_pos (by rw [length_insAxis]; omega), length_insAxis,
      show P.length + 1 - (g + 1) = P.length - g by omega]
    unfold insAxis
    rw [List.append_assoc, List.eraseIdx_append_of_length_le (by simp)]
    simp [List.length_take]

section
variable {α : Type} [CommSemiring α] {P dims Sz : List Nat}

theorem sliceIndices_colon (d : Nat) : sliceIndices ⟨none, none, none⟩ d = .ok (0, d, 1) := by
  simp [sliceIndices]

theorem isItem_colon {d i : Nat} (h : i < d) : IsItem ⟨none, none, none⟩ d i i :=
  ⟨0, d, 1, sliceIndices_colon d, by omega, by rw [if_pos (by omega)]; omega⟩

theorem hasItems_colon (d : Nat) : HasItems ⟨none, none, none⟩ d d := by
  intro i
  constructor
  · exact fun h => ⟨i, isItem_colon h⟩
  · rintro ⟨t, a, b, k, h1, h2, h3⟩
    rw [sliceIndices_colon] at h1
    obtain ⟨rfl, rfl, rfl⟩ : (0 : Int) = a ∧ (d : Int) = b ∧ (1 : Int) = k := by simpa using h1
    rw [if_pos (by omega)] at h3
    omega

theorem axesUsed_colons_append (n : Nat) (r : List RawIx) : axesUsed (List.replicate n colon ++ r) = n + axesUsed r := by
  induction n with
  | zero => simp
  | succ n ih =>
    rw [List.replicate_succ, List.cons_append]
    show axesUsed _ + 1 = _
    omega

theorem expands_newaxis (n : Nat) :
    Expands [.ellipsis, .newaxis] n (List.replicate n colon ++ [.newaxis]) := by
  refine ⟨by rw [axesUsed_colons_append]; rfl, .inr ⟨[], [.newaxis], n, rfl, by simp, by simp, by simp⟩⟩

theorem slicePreprocess_colons (P : List Nat) (hP : ∀ d ∈ P, 0 < d) :
    slicePreprocess (List.replicate P.length colon ++ [.newaxis]) P =
      .ok (P.map (fun d : Nat => Ix.slice 0 d 1) ++ [.newaxis]) := by
  induction P with
  | nil => rfl
  | cons d P ih =>
    have hd := hP d (by simp)
    have hlen : ¬ sliceLenN 0 (d : Int) 1 ≤ 0 := by
      unfold sliceLenN
      simp
      omega
    show (sliceIndices ⟨none, none, none⟩ d >>= _) = _
    rw [sliceIndices_colon]
    show (if sliceLenN 0 (d : Int) 1 ≤ 0 then _ else _) = _
    rw [if_neg hlen]
    show (slicePreprocess (List.replicate P.length colon ++ [.newaxis]) P >>= _) = _
    rw [ih fun d hd => hP d (List.mem_cons_of_mem _ hd)]
    rfl

theorem sliceInit_newaxis (P : List Nat) (hP : ∀ d ∈ P, 0 < d) :
    sliceInit [.ellipsis, .newaxis] P = .ok (P.map (fun d : Nat => Ix.slice 0 d 1) ++ [.newaxis]) := by
  unfold sliceInit
  rw [sliceExpand_ok (expands_newaxis P.length)]
  exact slicePreprocess_colons P hP

theorem indexedShape_colons (Q : List Nat) : IndexedShape (List.replicate Q.length colon) Q Q := by
  induction Q with
  | nil => rfl
  | cons d Q ih => exact ⟨hasItems_colon d, ih⟩

theorem picks_colons (Q : List Nat) (p : Nat → Nat) (hp : ∀ k, p k < lenR Q k) :
    Picks (List.replicate Q.length colon) Q p p := by
  induction Q generalizing p with
  | nil => trivial
  | cons d Q ih => exact ⟨isItem_colon (hp 0), ih _ fun k => hp (k + 1)⟩

theorem sliceMoments_newaxis (hP : ∀ d ∈ P, 0 < d) (u : Arr α) (hu : BroadcastsTo u.shape (P ++ dims)) :
    ∃ v, sliceMoments (P.map (fun d : Nat => Ix.slice 0 d 1) ++ [.newaxis]) dims u = .ok v ∧
      BroadcastsTo v.shape (P ++ [1] ++ dims) ∧
      ∀ d p, ValidIn P p → v.at (joinC dims.length d (consC 0 p)) = u.at (joinC dims.length d p) := by
  have hrev : (List.replicate P.length colon ++ [RawIx.newaxis]).reverse =
      .newaxis :: List.replicate P.reverse.length colon := by simp
  obtain ⟨v, hv, hb, hat⟩ := C12_moments_partial dims (C := P ++ [1]) (expands_newaxis P.length)
    (sliceInit_newaxis P hP) (by
      rw [hrev, List.reverse_append]
      exact ⟨rfl, indexedShape_colons _⟩) (by
      intro a b k h
      left
      simp only [List.mem_append, List.mem_map, Ix.slice.injEq, List.mem_singleton, reduceCtorEq, or_false] at h
      obtain ⟨_, _, _, _, rfl⟩ := h
      omega) u hu
  refine ⟨v, hv, hb, fun d p hp => hat _ _ _ ?_⟩
  rw [hrev]
  refine ⟨rfl, picks_colons _ _ fun k => ?_⟩
  have := hp k
  rwa [show axisLen P k = lenR P.reverse k from by rw [← axisLen_reverse, List.reverse_reverse]] at this

/-- **C15** The node made by `Choose`: its moments are `Σ_k z_k(p) x_k(p)`. -/
theorem C15_choose {z : Arr α} (us : List (Arr α)) (hne : us ≠ []) (hP : ∀ d ∈ P, 0 < d)
    (hz : z.shape = Sz ++ [us.length]) (hSz : BroadcastsTo Sz P)
    (hus : ∀ u ∈ us, BroadcastsTo u.shape (P ++ dims)) :
    ∃ v, chooseMoments P dims z us = .ok v ∧ BroadcastsTo v.shape (P ++ dims) ∧
      ∀ d p, ValidIn dims d → ValidIn P p → v.at (joinC dims.length d p) =
        ∑ k : Fin us.length, z.at (consC k p) * (us[k]).at (joinC dims.length d p) := by
  have hV : ∀ u : Arr α, ∃ v, u ∈ us → sliceMoments (P.map (fun d : Nat => Ix.slice 0 d 1) ++ [.newaxis]) dims u = .ok v ∧
      BroadcastsTo v.shape (P ++ [1] ++ dims) ∧
      ∀ d p, ValidIn P p → v.at (joinC dims.length d (consC 0 p)) = u.at (joinC dims.length d p) := by
    intro u
    by_cases hu : u ∈ us
    · obtain ⟨v, hv⟩ := sliceMoments_newaxis hP u (hus u hu)
      exact ⟨v, fun _ => hv⟩
    · exact ⟨u, fun h => absurd h hu⟩
  choose V hV using hV
  obtain ⟨x, hx, hxb, hxat⟩ := C14_moments P dims (List.replicate us.length 1) (us.map V) (by simp) (by simpa using hne) (by
    intro i u L hu hL
    rw [List.getElem?_map] at hu
    obtain ⟨w, hw, rfl⟩ := Option.map_eq_some_iff.1 hu
    have : L = 1 := by
      have := List.mem_of_getElem? hL
      exact (List.mem_replicate.1 this).2
    subst this
    exact (hV w (List.mem_of_getElem? hw)).2.1)
  have hxb' : BroadcastsTo x.shape (insAxis 0 us.length P ++ dims) := by
    have : insAxis 0 us.length P = P ++ [us.length] := by simp [insAxis]
    rw [this]
    simpa using hxb
  obtain ⟨v, hv, hvb, hvat⟩ := C15_moments (g := 0) (by omega) hz hSz hxb'
  refine ⟨v, ?_, hvb, fun d p hd hp => ?_⟩
  · unfold chooseMoments
    rw [sliceInit_newaxis P hP]
    simp only [bind, Except.bind]
    rw [mapM_ok us fun u hu => (hV u hu).1]
    simp only
    rw [hx]
    exact hv
  · rw [hvat d p hd hp, Finset.sum_range]
    apply Finset.sum_congr rfl
    intro k _
    congr 1
    have h := hxat k (V us[k]) 1 (by simp) (by simp) d 0 p (by omega)
    have e : (List.take (k : Nat) (List.replicate us.length 1)).sum + 0 = (k : Nat) := by
      rw [List.take_replicate, Nat.min_eq_left (by omega)]
      simp
    rw [e] at h
    unfold midC at h
    rw [joinC_one, joinC_one] at h
    have e2 : insC 0 k p = consC k p := by
      funext j
      cases j <;> simp [insC, consC]
    rw [e2, h]
    exact (hV us[k] (by simp)).2.2 d p hp

end

/-! ### Examples -/

section
private def zA : Arr Int := Arr.mk [2, 3] fun c => ((c 0 : Int) + 1) * (c 1 + 1)
private def xA : Arr Int := Arr.mk [3, 2, 2] fun c => 100 * (c 2 : Int) + 10 * c 1 + c 0
private def cA : Arr Int := Arr.mk [2, 2] fun c => 5 * (c 1 : Int) + c 0 + 1

/-- Plates `(2,)`, three clusters along the second plate axis from the right of `X`, vectors of length 2. -/
example : BroadcastsTo [2] [2] ∧ BroadcastsTo xA.shape (insAxis 1 3 [2] ++ [2]) ∧
    GateTerm.Fits [2] 1 3 ⟨[2], cA, xA⟩ :=
  ⟨BroadcastsTo.refl _, BroadcastsTo.refl _, BroadcastsTo.refl _, by decide, [3, 2], rfl, BroadcastsTo.refl _⟩

/-- `1 * 11 + 2 * 111 + 3 * 211` of the second plate, doubled by `z` -/
example : (gateMoments 1 1 zA xA).toOption.map (fun v => (v.shape, v.at (coord [1, 1]), v.at (coord [0, 1]))) =
    some ([2, 2], 2 * (1 * 11 + 2 * 111 + 3 * 211), 1 * 1 + 2 * 101 + 3 * 201) := by decide +kernel

example : (gateMessageZ 1 3 [(1, cA, xA)]).toOption.map (fun v => (v.shape, v.at (coord [1, 2]))) =
    some ([2, 3], 6 * 210 + 7 * 211) := by decide +kernel

example : (gateMessageX 1 1 cA zA).toOption.map (fun v => (v.shape, v.at (coord [2, 1, 0]))) =
    some ([3, 2, 2], 6 * 6) := by decide +kernel

example : gatePlatesToX 1 3 [4, 5] = [4, 3, 5] ∧ gatePlatesFromX 1 [4, 3, 5] = [4, 5] := by decide

/-- Choosing between two nodes with plates `(2,)`. -/
example : (chooseMoments [2] [] (Arr.mk [2, 2] fun c => if c 0 = c 1 then (1 : Int) else 0)
      [Arr.mk [2] fun c => 10 + (c 0 : Int), Arr.mk [] fun _ => 7]).toOption.map
        (fun v => (v.shape, v.at (coord [0]), v.at (coord [1]))) = some ([2], 10, 7) := by decide +kernel
end

end Verif
