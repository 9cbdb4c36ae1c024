import Verif.Model.GaussianChainCgf
import Verif.Lemmas.SumOver
import Verif.Props.Mixture
import Mathlib.Data.Real.Basic

/-!
# C20: the normaliser of Gaussian Markov chains for broadcast precisions

`Spec.logdetNu N D X` is the term of the normaliser which belongs to the noise: one half of the sum of the expected
logarithms of the precisions of all `N-1` transitions and all `D` components.
-/

namespace Verif

/-- One half of the sum over the transitions and the components, for the plate `p`. -/
noncomputable def Spec.logdetNu (N D : Nat) (X : Arr ℝ) (p : Nat → Nat) : ℝ :=
  0.5 * Spec.sumOver [N - 1, D] fun d => X.at (Spec.joinC 2 d p)

open Spec Function

theorem sumOver_pair {α : Type} [AddCommMonoid α] (a b : Nat) (f : (Nat → Nat) → α) :
    sumOver [a, b] f = ∑ t ∈ Finset.range a, ∑ u ∈ Finset.range b, f (update (update (fun _ => 0) 0 u) 1 t) := by
  rw [sumOver_cons]
  exact Finset.sum_congr rfl fun t _ => by rw [sumOver_singleton]; rfl

/-- A full last axis and a full time axis. -/
theorem C20_gaussian_chain_noise_full {N D : Nat} {X : Arr ℝ} {Q : List Nat}
    (hX : BroadcastsTo X.shape (Q ++ [N - 1, D])) (hr : 2 ≤ X.shape.length) (hD : axisLen X.shape 0 = D)
    (hN : axisLen X.shape 1 = N - 1) (hN2 : 2 ≤ N) :
    ∃ y, gmcLogdetNu N X = .ok y ∧ BroadcastsTo y.shape Q ∧ ∀ p, ValidIn Q p → y.at p = Spec.logdetNu N D X p := by
  have hfull : ∀ k < [N - 1, D].length, axisLen X.shape k = axisLen [N - 1, D] k := by
    intro k hk
    match k, hk with
    | 0, _ => simpa [axisLen] using hD
    | 1, _ => simpa [axisLen] using hN
  obtain ⟨s, hs, hsb, hsat⟩ := npSumLast_ok (dims := [N - 1, D]) hX hr hfull
  have hs' : npSumLast X 2 = .ok s := hs
  unfold gmcLogdetNu
  rw [if_neg (by omega), if_neg (by omega)]
  by_cases h1 : axisLen X.shape 1 = 1
  · rw [if_pos h1, hs']
    refine ⟨_, rfl, hsb, fun p hp => ?_⟩
    have e := hsat p hp
    have hN' : N = 2 := by omega
    unfold Arr.at at e ⊢
    simp only
    rw [e]
    subst hN'
    unfold Spec.logdetNu
    norm_num
    rfl
  · rw [if_neg h1, hs']
    refine ⟨_, rfl, hsb, fun p hp => ?_⟩
    have e := hsat p hp
    unfold Arr.at at e ⊢
    simp only
    rw [e]
    rfl

/-- A full last axis, the same precisions for all transitions. -/
theorem C20_gaussian_chain_noise_shared {N D : Nat} {X : Arr ℝ} {Q : List Nat}
    (hX : BroadcastsTo X.shape (Q ++ [1, D])) (hr : 1 ≤ X.shape.length) (hD : axisLen X.shape 0 = D) (hN : 1 ≤ N) :
    ∃ y, gmcLogdetNu N X = .ok y ∧ BroadcastsTo y.shape Q ∧ ∀ p, ValidIn Q p → y.at p = Spec.logdetNu N D X p := by
  have hax : axisLen X.shape 1 = 1 := by
    have := hX.2 1
    simp [axisLen] at this
    simpa [axisLen] using this
  have key : ∀ p (t u : Nat), X.at (joinC 2 (update (update (fun _ => 0) 0 u) 1 t) p)
      = X.at (joinC 2 (update (fun _ => 0) 0 u) p) := by
    intro p t u
    unfold Arr.at
    congr 1
    funext k
    unfold restrict
    by_cases hk : k = 1
    · subst hk; rw [if_pos hax, if_pos hax]
    · congr 1
      unfold joinC
      simp [update, hk]
  have spec : ∀ p, Spec.logdetNu N D X p
      = 0.5 * ((N : ℝ) - 1) * ∑ u ∈ Finset.range D, X.at (joinC 2 (update (fun _ => 0) 0 u) p) := by
    intro p
    unfold Spec.logdetNu
    rw [sumOver_pair]
    simp only [key]
    rw [Finset.sum_const, Finset.card_range, nsmul_eq_mul, Nat.cast_sub hN]
    push_cast
    ring
  unfold gmcLogdetNu
  by_cases h1 : X.shape.length = 1
  · obtain ⟨d, hd⟩ := List.length_eq_one_iff.1 h1
    have hd' : d = D := by simpa [hd, axisLen] using hD
    subst hd'
    rw [if_pos h1]
    obtain ⟨s, hs, hsb, hsat⟩ := npSumLast_ok (dims := [d]) (Q := []) (X := X) (by rw [hd]; exact BroadcastsTo.refl _)
      (by simp [hd]) (by intro k hk; rw [hd])
    have hs' : npSumLast X 1 = .ok s := hs
    have hsh : s.shape = [] := List.eq_nil_of_length_eq_zero (Nat.le_zero.1 hsb.1)
    rw [hs']
    refine ⟨_, rfl, ⟨by simp [hsh], fun k => by left; simp [hsh, axisLen]⟩, fun p hp => ?_⟩
    have e := hsat (fun _ => 0) (fun k => by simp [axisLen])
    rw [spec]
    have e1 : s.at p = s.at (fun _ => 0) := by
      unfold Arr.at
      congr 1
      funext k
      simp [restrict, hsh, axisLen]
    have e2 : s.at p = ∑ u ∈ Finset.range d, X.at (joinC 2 (update (fun _ => 0) 0 u) p) := by
      rw [e1, e, sumOver_singleton]
      refine Finset.sum_congr rfl fun u _ => ?_
      unfold Arr.at
      congr 1
      funext k
      unfold restrict
      by_cases hk : k = 0
      · subst hk; simp [joinC]
      · have h0 : axisLen X.shape k = 1 := by
          obtain ⟨j, rfl⟩ := Nat.exists_eq_succ_of_ne_zero hk
          rw [hd]; simp [axisLen]
        rw [if_pos h0, if_pos h0]
    rw [← e2]
    rfl
  · have hfull : ∀ k < [1, D].length, axisLen X.shape k = axisLen [1, D] k := by
      intro k hk
      match k, hk with
      | 0, _ => simpa [axisLen] using hD
      | 1, _ => simpa [axisLen] using hax
    obtain ⟨s, hs, hsb, hsat⟩ := npSumLast_ok (dims := [1, D]) hX (by simp; omega) hfull
    have hs' : npSumLast X 2 = .ok s := hs
    rw [if_neg h1, if_neg (by omega), if_pos hax, hs']
    refine ⟨_, rfl, hsb, fun p hp => ?_⟩
    rw [spec]
    have e2 : s.at p = ∑ u ∈ Finset.range D, X.at (joinC 2 (update (fun _ => 0) 0 u) p) := by
      rw [hsat p hp, sumOver_pair]
      simp [key]
    rw [← e2]
    rfl

/-- Two transitions of a state with two components, all four precisions given. -/
example : ∃ y, gmcLogdetNu 3 ⟨[2, 2], fun c => (c 0 : ℝ) + 2 * c 1⟩ = .ok y ∧ y.at (fun _ => 0) = 3 := by
  obtain ⟨y, hy, _, hat⟩ := C20_gaussian_chain_noise_full (N := 3) (D := 2) (Q := [])
    (X := ⟨[2, 2], fun c => (c 0 : ℝ) + 2 * c 1⟩) (BroadcastsTo.refl _) (by simp) rfl rfl (by omega)
  refine ⟨y, hy, (hat _ fun k => by simp [axisLen]).trans ?_⟩
  unfold Spec.logdetNu
  rw [sumOver_pair]
  simp [Finset.sum_range_succ, Arr.at, restrict, joinC, axisLen, update]
  norm_num

/-- A precision shared by the transitions. -/
example : ∃ y, gmcLogdetNu 3 ⟨[2], fun c => (c 0 : ℝ) + 1⟩ = .ok y ∧ y.at (fun _ => 0) = 3 := by
  obtain ⟨y, hy, _, hat⟩ := C20_gaussian_chain_noise_shared (N := 3) (D := 2) (Q := [])
    (X := ⟨[2], fun c => (c 0 : ℝ) + 1⟩) ⟨by simp, fun k => by
      match k with
      | 0 => right; rfl
      | 1 => left; rfl
      | k + 2 => left; rfl⟩ (by simp) rfl (by omega)
  refine ⟨y, hy, (hat _ fun k => by simp [axisLen]).trans ?_⟩
  unfold Spec.logdetNu
  rw [sumOver_pair]
  simp [Finset.sum_range_succ, Arr.at, restrict, joinC, axisLen, update]
  norm_num

/-- A precision shared by the components is counted once instead of `D` times.  This is what a `Gamma` node with plates
`(D,)` and scalar parameters sends until it is first updated: its moments have the shape `(1,)`. -/
theorem C20_gaussian_chain_noise_refuted : ∃ (X : Arr ℝ) (y : Arr ℝ), BroadcastsTo X.shape [2, 2] ∧ X.shape = [1] ∧
    gmcLogdetNu 3 X = .ok y ∧ y.at (fun _ => 0) ≠ Spec.logdetNu 3 2 X (fun _ => 0) := by
  refine ⟨⟨[1], fun _ => 1⟩, _, ⟨by simp, fun k => by
      match k with
      | 0 => left; rfl
      | 1 => left; rfl
      | k + 2 => left; rfl⟩, rfl, rfl, ?_⟩
  unfold Spec.logdetNu
  rw [sumOver_pair]
  simp [Arr.at, sumOver_singleton]
  norm_num

/-- A single number as the precision of the noise raises `IndexError`. -/
theorem C20_gaussian_chain_noise_raises (N : Nat) (X : Arr ℝ) (h : X.shape = []) :
    gmcLogdetNu N X = .error .indexError := by
  simp [gmcLogdetNu, h]

end Verif
