import Verif.Model.MoveAxis
import Verif.Model.SumMultiply
import Verif.Model.Message
import Verif.Model.Slice
import Verif.Model.Concatenate

/-!
# Model of the `Gate` node, `bayespy/inference/vmp/nodes/gate.py`

`gated_plate = -(g + 1)`.  `nd` is the number of variable axes, `len(self.dims[i])`.
-/

namespace Verif
open Spec

/-- `np.expand_dims(X, -(g + 1))`: a new unit axis with `g` axes after it.  More axes than the array has
raise `AxisError`, modelled as `ValueError`. -/
def npExpandDims {α : Type _} (X : Arr α) (g : Nat) : Except PyErr (Arr α) :=
  if g ≤ X.shape.length then
    .ok { shape := X.shape.take (X.shape.length - g) ++ [1] ++ X.shape.drop (X.shape.length - g)
          get := fun c => X.get fun k => if k < g then c k else c (k + 1) }
  else .error .valueError

/-- `misc.add_leading_axes(X, n)`, `misc.py` lines 1029-1049. -/
def addLeadingAxes {α : Type _} (X : Arr α) (n : Nat) : Arr α :=
  { shape := List.replicate n 1 ++ X.shape, get := X.get }

/-- `tuple(range(-n, 0))` -/
def lastAxes (n : Nat) : List Int := (List.range n).map fun i : Nat => (i : Int) - (n : Int)

/-- The moments of `Z` with the gated axis last, `gate.py` lines 93-94 and 152-153. -/
def gateZ {α : Type _} (z : Arr α) (nd : Nat) : Except PyErr (Arr α) :=
  moveaxis (addTrailingAxes z nd) (-(nd : Int) - 1) (-1)

/-- The moments of `X` with the gated axis last, lines 95-100. -/
def gateX {α : Type _} (g nd : Nat) (x : Arr α) : Except PyErr (Arr α) :=
  if x.shape.length < (-((g : Int) + 1) - nd).natAbs then .ok (addTrailingAxes x 1)
  else moveaxis x (-((g : Int) + 1) - nd) (-1)

/-- The moments of `X` with the gated axis before the variable axes, lines 119-124. -/
def gateXBefore {α : Type _} (g nd : Nat) (x : Arr α) : Except PyErr (Arr α) :=
  if x.shape.length < (-((g : Int) + 1) - nd).natAbs then npExpandDims x nd
  else moveaxis x (-((g : Int) + 1) - nd) (-(nd : Int) - 1)

/-- One moment of `_compute_moments`, lines 88-101. -/
def gateMoments {α : Type _} [CommSemiring α] (g nd : Nat) (z x : Arr α) : Except PyErr (Arr α) := do
  let z ← gateZ z nd
  let x ← gateX g nd x
  sumMultiply [z, x] (.scalar (-1)) true false

/-- One summand of the message to `Z`, lines 114-127. -/
def gateMessageZ1 {α : Type _} [CommSemiring α] (g nd : Nat) (c x : Arr α) : Except PyErr (Arr α) := do
  let c ← moveaxis (addTrailingAxes c 1) (-1) (-(nd : Int) - 1)
  let x ← gateXBefore g nd x
  sumMultiply [c, x] (.seq (lastAxes nd)) true false

/-- `_compute_message_to_parent(0, ...)`, lines 108-135; one triple (number of variable axes, message from
the children, moments of `X`) for each moment. -/
def gateMessageZ {α : Type _} [CommSemiring α] (g K : Nat) (ms : List (Nat × Arr α × Arr α)) :
    Except PyErr (Arr α) := do
  let m0 ← ms.foldlM (fun m0 t => do npAdd m0 (← gateMessageZ1 g t.1 t.2.1 t.2.2))
    ({ shape := [], get := fun _ => 0 } : Arr α)
  npMul m0 { shape := [K], get := fun _ => 1 }

/-- One moment of `_compute_message_to_parent(1, ...)`, lines 137-168. -/
def gateMessageX {α : Type _} [CommSemiring α] (g nd : Nat) (c z : Arr α) : Except PyErr (Arr α) := do
  let z ← gateZ z nd
  let gatedAxis : Int := -((g : Int) + 1) - nd
  let mi ← npMul z (addTrailingAxes c 1)
  let mi := if mi.shape.length < gatedAxis.natAbs then addLeadingAxes mi (gatedAxis.natAbs - mi.shape.length)
    else mi
  moveaxis mi (-1) gatedAxis

/-- `_compute_weights_to_parent(1, weights)`, lines 179-186. -/
def gateWeightsX {α : Type _} (g : Nat) (w : Arr α) : Except PyErr (Arr α) :=
  if w.shape.length ≥ g + 1 then npExpandDims w g else .ok w

/-- `list.insert(i, x)` of Python for `0 ≤ i`. -/
def pyInsert (l : List Nat) (i x : Nat) : List Nat := l.take i ++ [x] ++ l.drop i

/-- `_compute_plates_to_parent(1, plates)`, lines 197-205: `knd = len(plates) + gated_plate + 1`; a negative
`knd` counts from the end and is cut off at the beginning. -/
def gatePlatesToX (g K : Nat) (plates : List Nat) : List Nat :=
  let knd : Int := (plates.length : Int) - g
  pyInsert plates (if knd < 0 then knd + plates.length else knd).toNat K

/-- `_compute_plates_from_parent(1, plates)`, lines 216-221. -/
def gatePlatesFromX (g : Nat) (plates : List Nat) : List Nat :=
  if plates.length ≥ g + 1 then plates.eraseIdx (plates.length - (g + 1)) else plates

/-- One moment of the node made by `Choose(z, *nodes)`, lines 219-252: `node[..., None]` for each node,
`Concatenate` along the last plate axis and `Gate`.  All nodes have the plates `P` and the moment has the
shape `dims`. -/
def chooseMoments {α : Type _} [CommSemiring α] (P dims : List Nat) (z : Arr α) (us : List (Arr α)) :
    Except PyErr (Arr α) := do
  let slices ← sliceInit [.ellipsis, .newaxis] P
  let vs ← us.mapM (sliceMoments slices dims)
  let x ← concatMoments vs (List.replicate us.length 1) dims.length
  gateMoments 0 dims.length z x

end Verif
