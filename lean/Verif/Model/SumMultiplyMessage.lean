import Verif.Model.SumMultiplyNode
import Verif.Model.Gate

/-!
# Model of the messages of `SumMultiply`, `bayespy/inference/vmp/nodes/dot.py`

The loop `for ind in range(2)` of `_message_to_parent` is `smMessageArray`, which is given the operands of
`np.einsum` with the keys of their variable axes (`smOperands0` for `ind = 0`, `smOperands1` for `ind = 1`).
The message of the children and the moments of the other parents are inputs.
-/

namespace Verif
open Spec

/-- One pass of the loop, `dot.py` lines 461-614.  `N` is the number of keys, `mask` the shape of the mask,
`args` the operands with their keys.  A constant parent is listed twice for `ind = 1`, so its plates take
part twice in `result_plates`.  The loop deleting the keys one by one is a filter. -/
def smMessageArray {α : Type _} [CommSemiring α] (N : Nat) (mask : List Nat)
    (args : List (Arr α × List Nat)) (parentKeys parentPlates parentDims selfPlates : List Nat) :
    Except PyErr (Arr α) := do
  let plates := args.map fun a => a.1.shape.take (a.1.shape.length - a.2.length)
  let resultPlates ← plates.foldlM (fun r p => broadcastedShape [r, p]) (← broadcastedShape [[], mask])
  let resultNumPlates := (plates.map List.length).foldl max mask.length
  let labelled := args.map fun a => (a.1, plateLabels (N + 1) (a.1.shape.length - a.2.length) ++ a.2)
  let axes := (plateLabels (N + 1) parentPlates.length ++ parentKeys).zip (parentPlates ++ parentDims)
  let keep : Nat × Nat → Bool := fun x => x.2 != 1 && labelled.any fun a => decide (x.1 ∈ a.2)
  let removed := (axes.zipIdx.filter fun x => !keep x.1).map (·.2)
  let y ← npEinsum labelled ((axes.filter keep).map (·.1))
  let shape := removed.foldl (fun s ax => pyInsert s ax 1) y.shape
  let shape := if parentPlates.length > resultNumPlates
    then shape.drop (parentPlates.length - resultNumPlates) else shape
  let y ← npReshape y shape
  let y ← npMul y { shape := parentDims, get := fun _ => 1 }
  let r ← broadcastingMultiplier selfPlates [resultPlates, parentPlates]
  return if r ≠ 1 then npScale r y else y

/-- Operands of the first message, `dot.py` lines 495-512, 532-547: the first moments of the other
parents and the first message `m` of the children. -/
def smOperands0 {α : Type _} (outKeys : List Nat) (others : List (SMParent α)) (m : Arr α) :
    List (Arr α × List Nat) :=
  others.map (fun u => (u.u0, u.keys)) ++ [(m, outKeys)]

/-- Operands of the second message, `dot.py` lines 495-527, 532-547: second moments (or twice the first moment
of a constant) of the other parents and the second message `m` of the children. -/
def smOperands1 {α : Type _} (nKeys : Nat) (outKeys : List Nat) (others : List (SMParent α)) (m : Arr α) :
    List (Arr α × List Nat) :=
  others.flatMap (fun u =>
    if !u.isConst then [(u.u1, u.keys.map (· + nKeys) ++ u.keys)]
    else [(u.u0, u.keys), (u.u0, u.keys.map (· + nKeys))])
    ++ [(m, outKeys.map (· + nKeys) ++ outKeys)]

/-- `SumMultiply._message_to_parent` for a Gaussian parent, `dot.py` lines 425-614, 632: the two messages to the
parent `index` with variable of shape `parentDims`.  `m0` and `m1` are the messages of the children. -/
def smMessage {α : Type _} [CommSemiring α] (nd : SMNode) (mask selfPlates : List Nat)
    (parents : List (SMParent α)) (index : Nat) (parentPlates parentDims : List Nat)
    (m0 m1 : Arr α) : Except PyErr (Arr α × Arr α) := do
  match parents[index]? with
  | none => throw .indexError
  | some p =>
    if p.isConst then throw .notImplemented
    let others := parents.eraseIdx index
    let msg0 ← smMessageArray nd.nKeys mask (smOperands0 nd.outKeys others m0) p.keys parentPlates
      parentDims selfPlates
    let msg1 ← smMessageArray (2 * nd.nKeys) mask (smOperands1 nd.nKeys nd.outKeys others m1)
      (p.keys.map (· + nd.nKeys) ++ p.keys) parentPlates (parentDims ++ parentDims) selfPlates
    return (msg0, msg1)

end Verif
