import Verif.Model.Message
import Verif.Spec.Arr

/-!
# Model of the `Take` node, `bayespy/inference/vmp/nodes/take.py`, and of `misc.put_simple`

The negative axis `axis` is represented by its right position `a`, that is `axis = -(a+1)`.
-/

namespace Verif
open Spec

/-- A NumPy index of an axis of length `L` as a position: negative numbers count from the end. -/
def normIndex (L : Nat) (i : Int) : Nat := (if i < 0 then i + L else i).toNat

/-- All entries are valid indices of an axis of length `L`. -/
def indicesOk (L : Nat) (ind : Arr Int) : Bool :=
  (indices ind.shape).all fun i => -(L : Int) ≤ ind.get (coord i) && ind.get (coord i) < L

/-- `np.take(X, ind, axis)` (documented meaning): the axis is replaced by the axes of `ind`. -/
def npTake {α : Type _} (X : Arr α) (ind : Arr Int) (a : Nat) : Except PyErr (Arr α) :=
  let n := X.shape.length
  let N := ind.shape.length
  if ¬ a < n then .error .valueError
  else if ¬ indicesOk (axisLen X.shape a) ind then .error .indexError
  else .ok
    { shape := X.shape.take (n - (a + 1)) ++ ind.shape ++ X.shape.drop (n - a)
      get := fun c => X.get fun k =>
        if k < a then c k
        else if k = a then normIndex (axisLen X.shape a) (ind.get fun l => if l < N then c (l + a) else 0)
        else c (k - 1 + N) }

/-- `misc.atleast_nd(X, d)`, `misc.py` lines 298-302. -/
def atleastNd {α : Type _} (X : Arr α) (d : Nat) : Arr α :=
  { shape := List.replicate (d - X.shape.length) 1 ++ X.shape, get := X.get }

/-- `misc.put(x, indices, y, axis)`, `misc.py` lines 490-546: `np.add.at(x, (:, ..., indices, :, ...), y)`
adds, for each position `j` of `indices`, the values of `y` (broadcast) to `x` at `indices[j]`. -/
def putAdd {α : Type _} [AddCommMonoid α] (x : Arr α) (ind : Arr Int) (y : Arr α) (a : Nat) :
    Except PyErr (Arr α) := do
  let n := x.shape.length
  let N := ind.shape.length
  if ¬ a < n then throw .valueError
  if ¬ indicesOk (axisLen x.shape a) ind then throw .indexError
  let sub := x.shape.take (n - (a + 1)) ++ ind.shape ++ x.shape.drop (n - a)
  let b ← isShapeSubset y.shape sub
  if !b then throw .valueError
  return {
    shape := x.shape
    get := fun c => x.get c + ((indices ind.shape).map fun j =>
      if normIndex (axisLen x.shape a) (ind.get (coord j)) = c a then
        y.at fun k => if k < a then c k else if k < a + N then coord j (k - a) else c (k + 1 - N)
      else 0).sum }

/-- `misc.put_simple(y, indices, axis, length)`, `misc.py` lines 549-585, with `length` given. -/
def putSimple {α : Type _} [AddCommMonoid α] (y : Arr α) (ind : Arr Int) (a L : Nat) :
    Except PyErr (Arr α) :=
  let y := atleastNd y a
  let n := y.shape.length
  let N := ind.shape.length
  let shapeX :=
    if a + N = 0 then y.shape ++ [L]
    else if a = 0 then y.shape.take (n - (a + N)) ++ [L]
    else y.shape.take (n - (a + N)) ++ [L] ++ y.shape.drop (n - a)
  putAdd { shape := shapeX, get := fun _ => 0 } ind y a

/-- One array of `Take._compute_moments`, `take.py` lines 65-74; `a = -axis - 1`, `L` is the original
length. -/
def takeMoments {α : Type _} [CommSemiring α] (u : Arr α) (ind : Arr Int) (a L : Nat) :
    Except PyErr (Arr α) := do
  let x ← npMul u { shape := L :: List.replicate a 1, get := fun _ => 1 }
  npTake x ind a

/-- One array of `Take._compute_message_to_parent`, lines 77-88. -/
def takeMessage {α : Type _} [AddCommMonoid α] (m : Arr α) (ind : Arr Int) (a L : Nat) :
    Except PyErr (Arr α) := putSimple m ind a L

/-- `Take._compute_weights_to_parent`, lines 91-98, followed by the test `!= 0` of its callers; the mask is
added up as numbers. -/
def takeWeights (mask : Arr Bool) (ind : Arr Int) (a L : Nat) : Except PyErr (Arr Bool) := do
  let w ← putSimple ({ shape := mask.shape, get := fun c => if mask.get c then 1 else 0 } : Arr Nat) ind a L
  return { shape := w.shape, get := fun c => w.get c != 0 }

/-- `Take._compute_plates_from_parent`, lines 121-126; `a` is the right position of the plate axis. -/
def takePlatesFromParent (ind : Arr Int) (a : Nat) (plates : List Nat) : List Nat :=
  let n := plates.length
  let p := plates.take (n - (a + 1)) ++ ind.shape
  if a ≠ 0 then p ++ plates.drop (n - a) else p

/-- `Take._compute_plates_to_parent`, lines 101-118. -/
def takePlatesToParent (ind : Arr Int) (a L : Nat) (plates : List Nat) : List Nat :=
  let n := plates.length
  let N := ind.shape.length
  if a + N = 0 then plates ++ [L]
  else if a = 0 then plates.take (n - (a + N)) ++ [L]
  else plates.take (n - (a + N)) ++ [L] ++ plates.drop (n - a)

/-- `Take.__init__`, lines 44-62: the checks of the arguments (`plate_axis = -(a+1)`); `IndexError` when
the plate axis is read before it is validated. -/
def takeInit (ind : Arr Int) (a : Nat) (plates : List Nat) : Except PyErr Unit := do
  if ¬ a < plates.length then throw .indexError
  if ¬ indicesOk (axisLen plates a) ind then throw .valueError

end Verif
