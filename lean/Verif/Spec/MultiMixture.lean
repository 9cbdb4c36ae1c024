import Mathlib.Algebra.BigOperators.Group.List.Basic
import Verif.Spec.Arr

/-!
# Specification of mixtures over several categorical variables
-/

namespace Verif.Spec

/-- The probability that independent categorical variables have the values `ks`, given the probabilities of each of them. -/
def jointProbability {α : Type _} [Monoid α] (q : List (Nat → α)) (ks : List Nat) : α := (List.zipWith (fun q k => q k) q ks).prod

/-- The coordinate of plate `p` and the clusters `ks`, whose axes come after those of the plates. -/
def clusterCoord (ks : List Nat) (p : Nat → Nat) : Nat → Nat := joinC ks.length (coord ks) p

/-- The sum over the clusters of all variables -/
def sumClusters {α : Type _} [AddCommMonoid α] (Ks : List Nat) (f : List Nat → α) : α := ((indices Ks).map f).sum

end Verif.Spec
