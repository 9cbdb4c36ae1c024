import Mathlib.Algebra.BigOperators.Group.Finset.Basic
import Verif.Spec.Arr

/-!
# Specification vocabulary for contractions over named axes

An *assignment* `e : κ → Nat` gives a position to every axis name (key).
-/

namespace Verif.Spec

/-- Sum of `f` over all positions of the listed keys (each with its length); the positions of the
other keys are those of the assignment `e`. -/
def sumKeys {κ α : Type _} [DecidableEq κ] [AddCommMonoid α] :
    List (κ × Nat) → ((κ → Nat) → α) → (κ → Nat) → α
  | [], f, e => f e
  | (k, d) :: L, f, e => ∑ t ∈ Finset.range d, sumKeys L f (Function.update e k t)

/-- `setList l` lists the members of `l`, each once, in any order (Python's `list(set(l))`). -/
def ListsSet {κ : Type _} (setList : List κ → List κ) : Prop :=
  ∀ l, (setList l).Nodup ∧ ∀ k, k ∈ setList l ↔ k ∈ l

/-- `size` are the lengths of the keys of nodes given by their keys and shapes: all axes with the
same key have the same length or length one. -/
structure KeySizes {κ : Type _} (nodes : List (List κ × List Nat)) (size : κ → Nat) : Prop where
  fits : ∀ nd ∈ nodes, ∀ p ∈ nd.1.zip nd.2, p.2 = 1 ∨ p.2 = size p.1
  attained : ∀ k, size k = 1 ∨ ∃ nd ∈ nodes, (k, size k) ∈ nd.1.zip nd.2

/-- The keys name the axes of every node one to one, and the output keys are distinct keys of the
nodes. -/
structure WellKeyed {κ : Type _} (nodes : List (List κ × List Nat)) (out : List κ) : Prop where
  nonempty : nodes ≠ []
  length : ∀ nd ∈ nodes, nd.2.length = nd.1.length
  nodup : ∀ nd ∈ nodes, nd.1.Nodup
  out_nodup : out.Nodup
  out_mem : ∀ k ∈ out, ∃ nd ∈ nodes, k ∈ nd.1

end Verif.Spec
