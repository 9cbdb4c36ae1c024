import Verif.Spec.Arr
import Verif.Spec.Gate
import Verif.Model.Arr

/-!
# Specification: which plates of the parents do the plates of a node depend on
-/

namespace Verif.Spec

/-- Kinds of nodes: the distributions with parents on the same plates, `GaussianARD` with a shape, the Markov chains of
length `N` with `D` dimensions or `K` states, the Wishart variable made of a gamma variable, and mixtures whose cluster
axis has `g` plates after it and length `K`. -/
inductive Dist where
  | plain
  | ard (shape : List Nat)
  | gmc (N D : Nat)
  | varying (N D : Nat)
  | switching (N D K : Nat)
  | cmc (N K : Nat)
  | diagWishart (D : Nat)
  | mixture (raw : Dist) (g K : Nat)

/-- One variable on the plate `c` depends on the elements of the parent on `c` itself, at all positions of the further
axes `t`. -/
def UsesAxes (t : List Nat) (c e : Nat → Nat) : Prop := ∃ d, ValidIn t d ∧ e = joinC t.length d c

/-- The variable on the plate `c` is a part of the parent on the plate without the last `n` coordinates. -/
def UsesPart (n : Nat) (c e : Nat → Nat) : Prop := e = fun k => c (k + n)

/-- The elements `e` of the parent number `i` on which the variable on the plate `c` depends:

* a Gaussian with a shape has a mean for each of its elements;
* a Gaussian Markov chain has one initial state; the transition from each but the last time has a row for each
  dimension and a noise precision for each dimension;
* with varying dynamics there are matrices common to all times, with one row for each dimension, and weights for each
  transition; with switching dynamics there are matrices for each of the `K` choices, and a choice for each transition;
  (in both the noise precision, the last parent, has plates for the transitions and the dimensions);
* a categorical chain has transition probabilities for each transition and each state;
* a mixture depends on its own assignment, and on the parameters of all clusters. -/
def Dist.Uses : Dist → Nat → (c e : Nat → Nat) → Prop
  | .plain, _ => fun c e => e = c
  | .ard shape, _ => UsesAxes shape
  | .gmc N D, 1 => UsesAxes [N - 1, D]
  | .gmc N _, 2 => UsesAxes [N - 1]
  | .gmc _ _, _ => fun c e => e = c
  | .varying _ D, 2 => UsesAxes [D]
  | .varying N _, 3 => UsesAxes [N - 1]
  | .varying N D, 4 => UsesAxes [N - 1, D]
  | .varying _ _, _ => fun c e => e = c
  | .switching _ D K, 2 => UsesAxes [K, D]
  | .switching N _ _, 3 => UsesAxes [N - 1]
  | .switching N D _, 4 => UsesAxes [N - 1, D]
  | .switching _ _ _, _ => fun c e => e = c
  | .cmc N K, 1 => UsesAxes [N - 1, K]
  | .cmc _ _, _ => fun c e => e = c
  | .diagWishart D, _ => UsesAxes [D]
  | .mixture _ _ _, 0 => fun c e => e = c
  | .mixture raw g K, i + 1 => fun c e => ∃ k < K, raw.Uses i (insC g k c) e

/-- The cluster axes are inserted among the plates, or right before the first one. -/
def Dist.ClustersFit : Dist → List Nat → Prop
  | .mixture raw g K, P => g ≤ P.length ∧ raw.ClustersFit (insAxis g K P)
  | _, _ => True

/-- The mask `y` of a parent with plates `parent`: an element is active iff an active element of the node, with plates `P`
and mask `M`, depends on it. -/
def IsParentMask (P parent : List Nat) (uses : (c e : Nat → Nat) → Prop) (M y : Arr Bool) : Prop :=
  BroadcastsTo y.shape parent ∧ ∀ r, ValidIn parent r →
    (y.at r = true ↔ ∃ c e, ValidIn P c ∧ M.at c = true ∧ uses c e ∧ ReadsFrom parent e r)

end Verif.Spec
