import Verif.Lemmas.Message

/-! # Helper lemmas: algebra of `sumOver` -/

namespace Verif
open Spec Function

variable {α : Type _}

theorem sumOver_add [AddCommMonoid α] (s : List Nat) (f g : (Nat → Nat) → α) :
    sumOver s (fun c => f c + g c) = sumOver s f + sumOver s g := by
  unfold sumOver
  exact List.sum_map_add

theorem sumOver_zero [AddCommMonoid α] (s : List Nat) : sumOver s (fun _ => (0 : α)) = 0 := by
  unfold sumOver
  simp

theorem sumOver_mul_right [NonUnitalNonAssocSemiring α] (s : List Nat) (f : (Nat → Nat) → α) (x : α) :
    sumOver s (fun c => f c * x) = sumOver s f * x := by
  unfold sumOver
  rw [List.sum_map_mul_right]

theorem sumOver_mul_left [NonUnitalNonAssocSemiring α] (s : List Nat) (f : (Nat → Nat) → α) (x : α) :
    sumOver s (fun c => x * f c) = x * sumOver s f := by
  unfold sumOver
  rw [List.sum_map_mul_left]

theorem sumOver_sum [AddCommMonoid α] (s : List Nat) (n : Nat) (f : (Nat → Nat) → Nat → α) :
    sumOver s (fun c => ∑ t ∈ Finset.range n, f c t) = ∑ t ∈ Finset.range n, sumOver s fun c => f c t := by
  induction n with
  | zero => simp [sumOver_zero]
  | succ n ih => simp only [Finset.sum_range_succ]; rw [sumOver_add, ih]

theorem sumOver_comm [AddCommMonoid α] (s t : List Nat) (f : (Nat → Nat) → (Nat → Nat) → α) :
    sumOver s (fun c => sumOver t fun d => f c d) = sumOver t fun d => sumOver s fun c => f c d := by
  induction t generalizing f with
  | nil => simp only [sumOver_nil]
  | cons n t ih =>
    simp only [sumOver_cons]
    rw [sumOver_sum]
    exact Finset.sum_congr rfl fun u _ => ih _

theorem sumOver_singleton [AddCommMonoid α] (L : Nat) (f : (Nat → Nat) → α) :
    sumOver [L] f = ∑ t ∈ Finset.range L, f (update (fun _ => 0) 0 t) := by
  rw [sumOver_cons]
  simp [sumOver_nil]

end Verif
