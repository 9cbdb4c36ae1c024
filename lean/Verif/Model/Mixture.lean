import Verif.Model.Gate
import Verif.Model.Take

/-!
# Model of `MixtureDistribution`, `bayespy/inference/vmp/nodes/mixture.py`

`cluster_plate = -(g + 1)`.  `nd` is the number of variable axes, `self.ndims[ind]`.  The formulas of the mixed
distribution (`raw_distribution`) are not modelled here: the arrays which it computes are arguments.
-/

namespace Verif
open Spec

/-- `np.where(c != 0, X, 0)` -/
def whereNonzero {α : Type _} [Zero α] [DecidableEq α] (c X : Arr α) : Except PyErr (Arr α) :=
  npWhere { shape := c.shape, get := fun i => decide (c.get i ≠ 0) } X

/-- `np.sum(X, axis=tuple(range(-nd, 0)))` -/
def npSumLast {α : Type _} [AddCommMonoid α] (X : Arr α) (nd : Nat) : Except PyErr (Arr α) :=
  if nd ≤ X.shape.length then
    .ok { shape := X.shape.take (X.shape.length - nd)
          get := fun p => sumOver (X.shape.drop (X.shape.length - nd)) fun d => X.get (joinC nd d p) }
  else .error .valueError

/-- `ExponentialFamilyDistribution.compute_logpdf`, `expfamily.py` lines 45-61; one triple (number of variable axes,
moments, natural parameters) for each moment. -/
def computeLogpdf {α : Type _} [CommSemiring α] [DecidableEq α] (cgf f : Arr α) (ts : List (Nat × Arr α × Arr α)) :
    Except PyErr (Arr α) := do
  let L ← npAdd cgf f
  ts.foldlM (fun L t => do
    let w ← whereNonzero t.2.1 t.2.2
    let y ← npMul w t.2.1
    npAdd L (← npSumLast y t.1)) L

/-- One array of `compute_phi_from_parents`, lines 182-252; `Phi` is that of the mixed distribution. -/
def mixPhi {α : Type _} [CommSemiring α] [DecidableEq α] (g nd : Nat) (z Phi : Arr α) : Except PyErr (Arr α) := do
  let phi ← gateX g nd Phi
  let p ← gateZ z nd
  let phi ← whereNonzero p phi
  sumMultiply [p, phi] (.scalar (-1)) true false

/-- `compute_cgf_from_parents`, lines 262-295; `cgf` is that of the mixed distribution. -/
def mixCgf {α : Type _} [CommSemiring α] (g : Nat) (z cgf : Arr α) : Except PyErr (Arr α) := do
  let c ← gateX g 0 cgf
  sumMultiply [z, c] (.scalar (-1)) true false

/-- Lines 76-81: the moments with the cluster axis, if they have that many axes. -/
def mixU {α : Type _} (g nd : Nat) (u : Arr α) : Except PyErr (Arr α) :=
  if u.shape.length ≥ (-((g : Int) + 1) - nd).natAbs then npExpandDims u (g + nd) else .ok u

/-- `compute_message_to_parent(parent, 0, ...)`, lines 53-101; one triple (number of variable axes, moments of the
node, natural parameters of the mixed distribution) for each moment. -/
def mixMessageZ {α : Type _} [CommSemiring α] [DecidableEq α] (g : Nat) (cgf : Arr α) (ts : List (Nat × Arr α × Arr α)) :
    Except PyErr (Arr α) := do
  let c ← gateX g 0 cgf
  let ts ← ts.mapM fun t => do return (t.1, ← mixU g t.1 t.2.1, t.2.2)
  let L ← computeLogpdf c { shape := [], get := fun _ => 0 } ts
  moveaxis L (-((g : Int) + 1)) (-1)

/-- Lines 111-117: the moments with the cluster axis, which are passed to the mixed distribution. -/
def mixUSelf {α : Type _} (g nd : Nat) (u : Arr α) : Except PyErr (Arr α) := npExpandDims u (g + nd)

/-- Lines 143-159 of `compute_message_to_parent(parent, index, ...)` for `index ≥ 1`: one array `m` of the message of the
mixed distribution is weighed.  `e` axes are added to the weights by `raw_distribution.compute_weights_to_parent` (none
except for `GaussianARD`, which adds the variable axes because they are plates of its parent). -/
def mixMessageParam {α : Type _} [CommSemiring α] (g e nd : Nat) (z m : Arr α) : Except PyErr (Arr α) := do
  let p ← moveaxis (atleastNd z (g + 1)) (-1) (-((g : Int) + 1))
  npMul m (addTrailingAxes (addTrailingAxes p e) nd)

end Verif
