import Verif.Model.Multipliers
import Verif.Props.PlateMaps
import Verif.Props.SumMultiply

/-!
# C71: the plate multiplier of a node is that of its parents, on the plates of the node

A multiplier `10` on an axis says that each plate stands for ten.  Axes which only the parent has (the times of a chain,
the clusters of a mixture, the elements of a Gaussian array) are complete: multipliers stand for plates of the node.
-/

namespace Verif
open Spec

/-- The plate axes which only a parent has, with multiplier one -/
def Spec.Dist.complete : Dist → Dist
  | .plain => .plain
  | .ard shape => .ard (shape.map fun _ => 1)
  | .gmc _ _ => .gmc 2 1
  | .varying _ _ => .varying 2 1
  | .switching _ _ _ => .switching 2 1 1
  | .cmc _ _ => .cmc 2 1
  | .diagWishart _ => .diagWishart 1
  | .mixture raw g _ => .mixture raw.complete g 1

/-- The multipliers agree on all axes where the parent's is not one. -/
def Spec.MultFits (m μ : List Nat) : Prop := ∀ k, axisLen m k = 1 ∨ axisLen m k = axisLen μ k

/-- A multiplier fits the parents: on the plates towards each parent it agrees with that of the parent. -/
def Spec.FitsMultipliers (toParent : Nat → List Nat → Except PyErr (List Nat)) (mults : List (List Nat)) (μ : List Nat) :
    Prop :=
  ∀ i m, mults[i]? = some m → ∀ q, toParent i μ = .ok q → MultFits m q

/-- The multiplier fits; a given multiplier is used as it is and otherwise the multiplier is the least which fits. -/
structure Spec.IsMultiplier (toParent : Nat → List Nat → Except PyErr (List Nat)) (given : Option (List Nat))
    (mults : List (List Nat)) (μ : List Nat) : Prop where
  fits : FitsMultipliers toParent mults μ
  asGiven : ∀ Q, given = some Q → μ = Q
  least : given = none → ∀ Q, FitsMultipliers toParent mults Q → MultFits μ Q

/-! ## Helpers -/

theorem multFits_of_broadcasts {m μ : List Nat} (h : BroadcastsTo m μ) : MultFits m μ := h.2

theorem total_attained {ps : List (List Nat)} {P : List Nat} (h : totalPlates none ps = .ok P) (k : Nat) :
    axisLen P k = 1 ∨ ∃ p ∈ ps, axisLen p k = axisLen P k :=
  ((C01_broadcasted_shape_iff ps P).1 h).attained k

/-! ## Theorems -/

/-- **C71** If each parent either is on the plates of the node or has a multiplier of ones, the node has the right
multiplier.  Missing: parents with own axes and a multiplier; the code is wrong there, see below. -/
theorem C71_multiplier_partial (D : Dist) {given : Option (List Nat)} {mults : List (List Nat)} {μ : List Nat}
    (h : nodeMultiplier given mults = .ok μ)
    (hm : ∀ i m, mults[i]? = some m → (∀ k, axisLen m k = 1) ∨ ∀ Q, D.complete.map.toParent i Q = .ok Q) :
    IsMultiplier D.complete.map.toParent given mults μ := by
  have h' : totalPlates given mults = .ok μ := by
    simpa [nodeMultiplier, show multFromParent = id from rfl] using h
  obtain ⟨h1, h2, _⟩ := totalPlates_ok h'
  refine ⟨fun i m him q hq k => ?_, fun Q hQ => h2 Q hQ, fun hn Q hQ k => ?_⟩
  · rcases hm i m him with h | h
    · exact .inl (h k)
    · rw [h μ] at hq
      cases hq
      exact (h1 m (List.mem_of_getElem? him)).2 k
  · subst hn
    rcases total_attained h' k with h | ⟨m, hmem, hk⟩
    · exact .inl h
    · obtain ⟨i, hi⟩ := List.getElem?_of_mem hmem
      rw [← hk]
      rcases hm i m hi with h | h
      · exact .inl (h k)
      · exact hQ i m hi Q (h Q) k

/-- **C71** Distributions with the default plate maps -/
theorem C71_plain {given : Option (List Nat)} {mults : List (List Nat)} {μ : List Nat}
    (h : nodeMultiplier given mults = .ok μ) : IsMultiplier idMap.toParent given mults μ :=
  C71_multiplier_partial .plain h fun _ _ _ => .inr fun _ => rfl

example : IsMultiplier idMap.toParent none [[10, 1], [5], []] [10, 5] :=
  C71_plain (by decide)

/-- observations in batches with common clusters -/
example : IsMultiplier (Dist.mixture .plain 0 1).map.toParent none [[10], [1]] [10] :=
  C71_multiplier_partial (.mixture .plain 0 7) (by decide) fun i m h => by
    match i, h with
    | 0, _ => exact .inr fun _ => rfl
    | 1, h => cases h; exact .inl fun k => by match k with | 0 => decide | k + 1 => simp [axisLen]

/-- **C71** The messages are scaled by the ratio of the multipliers, whatever these are: `r` times the number of plates
which one plate of the parent stands for is that number for the node. -/
theorem C71_ratio {m μ : List Nat} {r : Nat} (h : broadcastingMultiplier μ [m] = .ok r) : r * m.prod = μ.prod := by
  have hone : ∀ s : List Nat, sumOver s (fun _ => (1 : Nat)) = s.prod := by
    intro s
    induction s with
    | nil => rw [sumOver_nil]; rfl
    | cons d s ih => rw [sumOver_cons]; simp [ih]
  have h2 : IsBroadcast [m] m := ⟨by simp, .inr ⟨m, by simp, rfl⟩, by simp, fun k => .inr ⟨m, by simp, rfl⟩⟩
  have h3 := C04_multiplier_sum (α := Nat) μ m [⟨m, fun _ => 1⟩] r h h2
  have e : ∀ c, ([(⟨m, fun _ => 1⟩ : Arr Nat)].map fun X => X.at c).prod = 1 := fun c => rfl
  simp only [e] at h3
  rw [hone, hone] at h3
  exact h3

example : broadcastingMultiplier [10, 3] [[3]] = .ok 10 ∧ 10 * [3].prod = [10, 3].prod :=
  ⟨by decide, C71_ratio (by decide)⟩

/-- **C71** A Gaussian array whose first axes become plates: the new plates have multiplier one. -/
theorem C71_to_gaussian {head m μ : List Nat} {given : Option (List Nat)}
    (h : toGaussianMultiplier head.length given m = .ok μ) :
    MultFits (m ++ head.map fun _ => 1) μ ∧ (∀ Q, given = some Q → μ = Q) ∧
      (given = none → μ = m ++ head.map fun _ => 1) := by
  have e : List.replicate head.length 1 = head.map fun _ => 1 := by simp
  unfold toGaussianMultiplier at h
  rw [e] at h
  obtain ⟨h1, h2, _⟩ := totalPlates_ok h
  refine ⟨(h1 _ (by simp)).2, h2, fun hn => ?_⟩
  subst hn
  refine C01_broadcast_unique _ _ _ ((C01_broadcasted_shape_iff _ _).1 h) ?_
  exact ⟨by simp, .inr ⟨_, by simp, rfl⟩, by simp, fun k => .inr ⟨_, by simp, rfl⟩⟩

example : toGaussianMultiplier 2 none [10] = .ok [10, 1, 1] := by decide

/-- **C71** `Take` and `Concatenate` accept only multipliers of ones. -/
theorem C71_take_concatenate {given : Option (List Nat)} {m μ : List Nat} {mults : List (List Nat)} :
    (takeMultiplier given m = .ok μ → ∀ p ∈ m, p = 1) ∧
      (concatMultiplier given mults = .ok μ → ∀ m ∈ mults, ∀ p ∈ m, p = 1) := by
  constructor
  · intro h
    obtain ⟨_, h1, _⟩ := ebind_ok.1 h
    have := raiseIf_ok.1 h1
    push Not at this
    exact this
  · intro h
    obtain ⟨_, h1, _⟩ := ebind_ok.1 h
    have := raiseIf_ok.1 h1
    push Not at this
    exact this

example : takeMultiplier none [1, 1] = .ok [1, 1] := by decide
example : takeMultiplier none [10] = .error .notImplemented := by decide
example : concatMultiplier none [[1], []] = .ok [] := by decide

/-! ## Where the code is wrong -/

/-- **C71** refuted: sequences in batches (multiplier `10`) of a chain with varying dynamics, whose weights are on the
sequences and the transitions.  The multiplier of the weights is read as one for the transitions: the node counts
everything a hundred times instead of ten. -/
theorem C71_varying_refuted : nodeMultiplier none [[10], [], [], [10, 1], []] = .ok [10, 10] ∧
    FitsMultipliers (Dist.varying 2 1).map.toParent [[10], [], [], [10, 1], []] [10] ∧
    ¬ IsMultiplier (Dist.varying 2 1).map.toParent none [[10], [], [], [10, 1], []] [10, 10] := by
  have hfit : FitsMultipliers (Dist.varying 2 1).map.toParent [[10], [], [], [10, 1], []] [10] := by
    intro i m hi q hq k
    match i, hi, hq with
    | 0, hi, hq => cases hi; cases hq; exact .inr rfl
    | 1, hi, hq => cases hi; exact .inl (by simp [axisLen])
    | 2, hi, hq => cases hi; exact .inl (by simp [axisLen])
    | 3, hi, hq => cases hi; cases hq; exact .inr rfl
    | 4, hi, hq => cases hi; exact .inl (by simp [axisLen])
  refine ⟨by decide, hfit, fun h => ?_⟩
  have := h.least rfl [10] hfit 1
  revert this
  decide

/-- **C71** refuted: a mixture whose cluster parameters are on the observations too -/
theorem C71_mixture_refuted : nodeMultiplier none [[10], [10, 1]] = .ok [10, 10] ∧
    FitsMultipliers (Dist.mixture .plain 0 1).map.toParent [[10], [10, 1]] [10] ∧
    ¬ IsMultiplier (Dist.mixture .plain 0 1).map.toParent none [[10], [10, 1]] [10, 10] := by
  have hfit : FitsMultipliers (Dist.mixture .plain 0 1).map.toParent [[10], [10, 1]] [10] := by
    intro i m hi q hq k
    match i, hi, hq with
    | 0, hi, hq => cases hi; cases hq; exact .inr rfl
    | 1, hi, hq => cases hi; cases hq; exact .inr rfl
  refine ⟨by decide, hfit, fun h => ?_⟩
  have := h.least rfl [10] hfit 1
  revert this
  decide

/-- **C71** refuted: the states of the chains as separate variables.  The multiplier of the sequences ends up on the axis
of the times, and the right multiplier is rejected when it is given. -/
theorem C71_unchain_refuted : nodeMultiplier none [[10]] = .ok [10] ∧
    ¬ FitsMultipliers (unchainMap 1).toParent [[10]] [10] ∧
    IsMultiplier (unchainMap 1).toParent none [[10]] [10, 1] ∧
    nodeMultiplier (some [10, 1]) [[10]] = .error .valueError := by
  refine ⟨by decide, fun h => ?_, ⟨fun i m hi q hq k => ?_, by simp, fun _ Q hQ k => ?_⟩, by decide⟩
  · have := h 0 [10] rfl [] rfl 0
    revert this
    decide
  · match i, hi, hq with
    | 0, hi, hq => cases hi; cases hq; exact .inr rfl
  · match k with
    | 0 => exact .inl rfl
    | 1 =>
      rcases hQ 0 [10] rfl (getPlates 1 Q) rfl 0 with h | h
      · exact absurd h (by decide)
      · refine .inr ?_
        have hl : 1 ≤ Q.length := by
          by_contra hc
          have h6 : axisLen (getPlates 1 Q) 0 = 1 := axisLen_of_ge (by simp [getPlates]; omega)
          rw [h6] at h
          exact absurd h (by decide)
        have h5 := axisLen_append (getPlates 1 Q) (Q.drop (Q.length - 1)) 1
        rw [getPlates, List.take_append_drop, if_neg (by simp; omega)] at h5
        rw [h5, show 1 - (Q.drop (Q.length - 1)).length = 0 by simp; omega]
        exact h
    | k + 2 => exact .inl (by simp [axisLen])

end Verif
