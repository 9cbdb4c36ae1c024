import Mathlib.Algebra.BigOperators.Group.List.Basic
import Verif.Spec.Shape

/-!
# Specification vocabulary for sums over array indices
-/

namespace Verif.Spec

/-- All multi-indices of an array of the given shape, in C order. -/
def indices : List Nat → List (List Nat)
  | [] => [[]]
  | d :: ds => (List.range d).flatMap fun i => (indices ds).map (i :: ·)

/-- The coordinate (axes counted from the right, `0` for missing axes) of a multi-index. -/
def coord (i : List Nat) : Nat → Nat := fun k => i.reverse.getD k 0

/-- Sum of `f` over all elements of an array of the given shape. -/
def sumOver {α : Type _} [AddCommMonoid α] (shape : List Nat) (f : (Nat → Nat) → α) : α :=
  ((indices shape).map fun i => f (coord i)).sum

/-- Under broadcasting, the element at `c` of a big array reads the element at `idx` of an array of
shape `s`: they agree on all non-unit axes of `s`. -/
def ReadsFrom (s : List Nat) (c idx : Nat → Nat) : Prop := ∀ k, axisLen s k = 1 ∨ c k = idx k

/-- Join coordinates `d` of the last `n` axes (variable dimensions) and `p` of the others (plates). -/
def joinC (n : Nat) (d p : Nat → Nat) : Nat → Nat := fun k => if k < n then d k else p (k - n)

/-- The axis (counted from the left) `p` of a rank-`M` array is named by the integer `a`
(negative numbers count from the end). -/
def Names (M : Nat) (a : Int) (p : Nat) : Prop := a = p ∨ a = (p : Int) - M

instance (M : Nat) (a : Int) (p : Nat) : Decidable (Names M a p) := by unfold Names; infer_instance

end Verif.Spec
