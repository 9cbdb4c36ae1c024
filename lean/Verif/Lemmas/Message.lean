import Verif.Model.Message
import Verif.Lemmas.ToPlates

/-! # Helper lemmas: messages and masks -/

namespace Verif
open Spec Function

theorem axisLen_append (s t : List Nat) (k : Nat) :
    axisLen (s ++ t) k = if k < t.length then axisLen t k else axisLen s (k - t.length) := by
  unfold axisLen
  rw [List.reverse_append]
  split
  · rw [List.getElem?_append_left (by simpa using ‹_›)]
  · rw [List.getElem?_append_right (by simp; omega), List.length_reverse]

theorem validIn_joinC {s t : List Nat} {d p : Nat → Nat} (hd : ValidIn t d) (hp : ValidIn s p) :
    ValidIn (s ++ t) (joinC t.length d p) := by
  intro k
  rw [axisLen_append]
  unfold joinC
  split
  · exact hd k
  · exact hp _

theorem sumOver_append {α : Type _} [AddCommMonoid α] (s t : List Nat) (f : (Nat → Nat) → α) :
    sumOver (s ++ t) f = sumOver s fun p => sumOver t fun d => f (joinC t.length d p) := by
  induction s generalizing f with
  | nil =>
    rw [sumOver_nil, List.nil_append]
    apply sumOver_congr
    intro i hi
    congr 1
    funext k
    unfold joinC
    split
    · rfl
    · have := coord_valid hi k
      rw [axisLen_of_ge (by omega)] at this
      show coord i k = 0
      omega
  | cons e s ih =>
    rw [List.cons_append, sumOver_cons, sumOver_cons]
    apply Finset.sum_congr rfl
    intro u _
    rw [ih]
    apply sumOver_congr
    intro i hi
    apply sumOver_congr
    intro j hj
    congr 1
    funext k
    unfold joinC update
    rw [List.length_append]
    by_cases h : k < t.length
    · simp [h]; omega
    · by_cases h2 : k = s.length + t.length
      · subst h2
        simp
      · simp only [h, h2, dite_false, if_false]
        rw [dif_neg (by omega)]

open Classical in
/-- Among all elements exactly one has the coordinates of a given valid position. -/
theorem sumOver_single {α : Type _} [AddCommMonoid α] (s : List Nat) (f : (Nat → Nat) → α)
    (idx : Nat → Nat) (h : ∀ k < s.length, idx k < axisLen s k) :
    sumOver s (fun c => if ∀ k < s.length, c k = idx k then f c else 0) =
      f (fun k => if k < s.length then idx k else 0) := by
  have := sumOver_ite s (fun _ => false) f idx (fun k hk _ => h k hk)
  simp only [Bool.false_eq_true, false_or] at this
  rw [this]
  simp [selAxes, sumAxes]

theorem squeezeLeading_at {α : Type _} (X : Arr α) (c : Nat → Nat) :
    (squeezeLeading X).at c = X.at c ∧
    (∀ k, axisLen (squeezeLeading X).shape k = axisLen X.shape k) ∧
    (squeezeLeading X).shape.length ≤ X.shape.length := by
  have h : ∀ k, axisLen (X.shape.dropWhile (· = 1)) k = axisLen X.shape k := by
    intro k
    generalize X.shape = s
    induction s with
    | nil => rfl
    | cons d s ih =>
      by_cases hd : d = 1
      · subst hd
        rw [List.dropWhile_cons_of_pos (by simp), ih, axisLen_cons]
        split
        · rw [axisLen_of_ge (by omega)]
        · rfl
      · rw [List.dropWhile_cons_of_neg (by simpa using hd)]
  refine ⟨?_, h, (List.dropWhile_suffix _).length_le⟩
  show X.get (restrict _ c) = X.get (restrict _ c)
  congr 1
  funext k
  unfold restrict
  rw [show axisLen (squeezeLeading X).shape k = _ from h k]

theorem axisLen_addTrailingAxes {α : Type _} (X : Arr α) (n k : Nat) :
    axisLen (addTrailingAxes X n).shape k = if k < n then 1 else axisLen X.shape (k - n) := by
  show axisLen (X.shape ++ List.replicate n 1) k = _
  rw [axisLen_append, List.length_replicate]
  split
  · unfold axisLen
    rw [List.reverse_replicate, List.getElem?_replicate]
    split <;> rfl
  · rfl

theorem addTrailingAxes_at {α : Type _} (X : Arr α) (n : Nat) (c : Nat → Nat) :
    (addTrailingAxes X n).at c = X.at fun k => c (k + n) := by
  show X.get (fun k => restrict (addTrailingAxes X n).shape c (k + n)) = X.get (restrict _ _)
  congr 1
  funext k
  unfold restrict
  have e : axisLen (addTrailingAxes X n).shape (k + n) = axisLen X.shape k := by
    rw [axisLen_addTrailingAxes, if_neg (by omega), Nat.add_sub_cancel]
  rw [e]

theorem BroadcastsTo.refl (s : List Nat) : BroadcastsTo s s := ⟨Nat.le_refl _, fun _ => .inr rfl⟩

/-- Two shapes which broadcast to a third one have a common broadcast, which does so as well. -/
theorem isBroadcast_of_common {s t b : List Nat} (hs : BroadcastsTo s b) (ht : BroadcastsTo t b) :
    ∃ r, IsBroadcast [s, t] r ∧ BroadcastsTo r b := by
  obtain ⟨r, hr⟩ := (exists_isBroadcast_iff [s, t]).2 (by
    intro k x hx y hy
    have hx' : x = s ∨ x = t := by simpa using hx
    have hy' : y = s ∨ y = t := by simpa using hy
    have := hs.2 k
    have := ht.2 k
    rcases hx' with rfl | rfl <;> rcases hy' with rfl | rfl <;> omega)
  refine ⟨r, hr, ?_, fun k => ?_⟩
  · rcases hr.rank_le with h | ⟨x, hx, h⟩
    · omega
    · have hx' : x = s ∨ x = t := by simpa using hx
      have := hs.1
      have := ht.1
      rcases hx' with rfl | rfl <;> omega
  · rcases hr.attained k with h | ⟨x, hx, h⟩
    · exact .inl h
    · have hx' : x = s ∨ x = t := by simpa using hx
      have := hs.2 k
      have := ht.2 k
      rcases hx' with rfl | rfl <;> omega

theorem at_isBroadcast {α : Type _} {X : Arr α} {shapes : List (List Nat)} {r : List Nat}
    (hr : IsBroadcast shapes r) (hX : X.shape ∈ shapes) (c : Nat → Nat) :
    X.at (restrict r c) = X.at c := by
  apply X.at_congr
  intro k hk
  unfold restrict
  rw [if_neg]
  rcases hr.fits k _ hX with h | h
  · exact absurd h hk
  · omega

theorem npWhere_ok {α : Type _} [Zero α] {mask : Arr Bool} {X : Arr α} {r : List Nat}
    (hr : IsBroadcast [mask.shape, X.shape] r) :
    ∃ Y, npWhere mask X = .ok Y ∧ Y.shape = r ∧ ∀ c, Y.at c = if mask.at c then X.at c else 0 := by
  refine ⟨{ shape := r, get := fun c => if mask.at c then X.at c else 0 }, ?_, rfl, fun c => ?_⟩
  · unfold npWhere
    rw [(broadcastedShape_ok _ _).2 hr]
    rfl
  · show (if mask.at (restrict r c) then X.at (restrict r c) else 0) = _
    rw [at_isBroadcast hr (by simp), at_isBroadcast hr (by simp)]

theorem npScale_at {α : Type _} [NatCast α] [Mul α] (r : Nat) (X : Arr α) (c : Nat → Nat) :
    (npScale r X).at c = (r : α) * X.at c := rfl

theorem anyAxes_iff (L : List (Nat × Nat)) (hnd : (L.map (·.1)).Nodup) (f : (Nat → Nat) → Bool)
    (c : Nat → Nat) :
    anyAxes L f c = true ↔
      ∃ c', (∀ p ∈ L, c' p.1 < p.2) ∧ (∀ k, k ∉ L.map (·.1) → c' k = c k) ∧ f c' = true := by
  induction L generalizing c with
  | nil =>
    constructor
    · intro h; exact ⟨c, by simp, by simp, h⟩
    · rintro ⟨c', _, h2, h3⟩
      have : c' = c := funext fun k => h2 k (by simp)
      rwa [this] at h3
  | cons p L ih =>
    obtain ⟨j, d⟩ := p
    simp only [List.map_cons, List.nodup_cons] at hnd
    simp only [anyAxes, List.any_eq_true, List.mem_range]
    constructor
    · rintro ⟨t, ht, h⟩
      obtain ⟨c', h1, h2, h3⟩ := (ih hnd.2 _).1 h
      have hj : c' j = t := by rw [h2 j hnd.1]; simp
      refine ⟨c', ?_, ?_, h3⟩
      · intro p hp
        rcases List.mem_cons.1 hp with rfl | hp
        · simpa [hj] using ht
        · exact h1 p hp
      · intro k hk
        simp only [List.map_cons, List.mem_cons, not_or] at hk
        rw [h2 k hk.2, update_of_ne hk.1]
    · rintro ⟨c', h1, h2, h3⟩
      refine ⟨c' j, h1 (j, d) (by simp), (ih hnd.2 _).2 ⟨c', fun p hp => h1 p (by simp [hp]), ?_, h3⟩⟩
      intro k hk
      by_cases e : k = j
      · subst e; simp
      · rw [update_of_ne e]
        exact h2 k (by simp [hk, e])

end Verif
