import Verif.Model.SumMultiplyNode

/-!
# Model of `Node._compute_message`, `bayespy/inference/vmp/nodes/node.py`
-/

namespace Verif
open Spec

/-- One array of `make_equal_ndim`, `misc.py` lines 739-747: `np.reshape` with leading unit axes, which keeps
the elements. -/
def padLeading {α : Type _} (n : Nat) (X : Arr α) : Arr α :=
  { shape := List.replicate (n - X.shape.length) 1 ++ X.shape, get := X.get }

/-- `make_equal_ndim(*arrays)`, `misc.py` lines 724-747.  The maximum of no lengths raises `ValueError`. -/
def makeEqualNdim {α : Type _} (arrays : List (Arr α)) : Except PyErr (List (Arr α)) :=
  if arrays.isEmpty then .error .valueError
  else .ok (arrays.map (padLeading ((arrays.map fun X => X.shape.length).foldl max 0)))

/-- `Node._compute_message(*arrays, plates_from, plates_to, ndim)`, `node.py` lines 794-857.  The list
`[min(plates_to[ind], arrays_plates[ind]) for ind in range(-n, 0)]` is the elementwise minimum of the last
`n` entries. -/
def computeMessage {α : Type _} [CommSemiring α] (arrays : List (Arr α)) (platesFrom platesTo : List Nat)
    (ndim : Nat) : Except PyErr (Arr α) := do
  let ok ← isShapeSubset platesTo platesFrom
  if !ok then throw .valueError
  let arraysShape ← broadcastedShape (arrays.map (·.shape))
  let arraysPlates := if ndim = 0 then arraysShape else arraysShape.take (arraysShape.length - ndim)
  let dims := if ndim = 0 then [] else arraysShape.drop (arraysShape.length - ndim)
  let r ← broadcastingMultiplier platesFrom [arraysPlates, platesTo]
  let arrays ← makeEqualNdim arrays
  let nplates := arraysPlates.length
  let inPlateKeys := plateLabels 0 nplates
  let outPlateKeys := inPlateKeys.filter fun key => decide (key < platesTo.length) &&
    decide (platesTo.getD (platesTo.length - 1 - key) 0 ≠ 1)
  let dimKeys := (List.range ndim).map (nplates + ·)
  let y ← npEinsum (arrays.map fun X => (X, inPlateKeys ++ dimKeys)) (outPlateKeys ++ dimKeys)
  let n := min platesTo.length nplates
  let platesResult := List.zipWith min (platesTo.drop (platesTo.length - n))
    (arraysPlates.drop (nplates - n))
  npReshape (npScale r y) (platesResult ++ dims)

/-- `SumMultiply._message_to_parent`, the two further messages to a Gaussian-gamma parent, `dot.py` lines
616-630.  `us` lists for each parent whether it has delta moments, and its third moment. -/
def smGammaMessage {α : Type _} [CommSemiring α] (mask : Arr α) (selfPlates : List Nat) (us : List (Bool × Arr α))
    (index : Nat) (parentPlates : List Nat) (m2 m3 : Arr α) : Except PyErr (Arr α × Arr α) := do
  let alphas := (us.eraseIdx index).map fun u => if !u.1 then u.2 else scalarArr 1
  let m2 ← computeMessage (m2 :: mask :: alphas) selfPlates parentPlates 0
  let m3 ← computeMessage [m3, mask] selfPlates parentPlates 0
  return (m2, m3)

end Verif
