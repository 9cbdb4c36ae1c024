import Verif.Model.Message

/-!
# Model of `tile`, `bayespy/inference/vmp/nodes/deterministic.py` lines 156-318

One array of the moments or messages is treated at a time.  `T` is the tuple `tiles`.
-/

namespace Verif
open Spec

/-- Leading ones up to length `n`, as `misc.make_equal_length`, `misc.py` lines 723-736, adds them. -/
def padOnes (n : Nat) (s : List Nat) : List Nat := List.replicate (n - s.length) 1 ++ s

/-- `misc.multiply_shapes` of two shapes, `misc.py` lines 706-721. -/
def multiplyShapes (s t : List Nat) : List Nat :=
  let n := max s.length t.length
  List.zipWith (· * ·) (padOnes n s) (padOnes n t)

/-- `np.sum(X, axis=axes)` with non-negative axes (the axes are removed); an axis out of bounds or given
twice raises. -/
def npSumDrop {α : Type _} [AddCommMonoid α] (X : Arr α) (axes : List Nat) : Except PyErr (Arr α) :=
  let n := X.shape.length
  let ks := axes.map fun i => n - 1 - i
  if (∀ i ∈ axes, i < n) ∧ axes.Nodup then
    .ok { shape := ((List.range n).filter (· ∉ axes)).map fun i => X.shape.getD i 1
          get := fun c => sumAxes (ks.map fun k => (k, axisLen X.shape k)) X.at fun k =>
            if k ∈ ks then 0 else c ((List.range k).filter (· ∉ ks)).length }
  else .error .valueError

/-- `_compute_plates_to_parent`, lines 189-193: integer division of the last `len(tiles)` plates; `IndexError`
if there are fewer plates, `ZeroDivisionError` if a number of tiles is zero. -/
def tilePlatesToParent (T plates : List Nat) : Except PyErr (List Nat) :=
  if ¬ T.length ≤ plates.length then .error .indexError
  else if 0 ∈ T then .error .zeroDivisionError
  else .ok (plates.take (plates.length - T.length) ++
    List.zipWith (· / ·) (plates.drop (plates.length - T.length)) T)

/-- `_compute_plates_from_parent`, lines 195-196. -/
def tilePlatesFromParent (T plates : List Nat) : List Nat := multiplyShapes plates T

/-- Interleave the two tuples, reshape, and sum over every other axis (lines 222-233 and 271-281).
`functools.reduce` of an empty sequence raises `TypeError`. -/
def tileReduce {α : Type _} [AddCommMonoid α] (m : Arr α) (tiles shape : List Nat) : Except PyErr (Arr α) := do
  let s := (tiles.zip shape).flatMap fun p => [p.1, p.2]
  if (tiles.zip shape).isEmpty then throw .typeError
  let x ← npReshape m s
  npSumDrop x ((List.range s.length).filter fun i => i % 2 = 0)

/-- `_compute_weights_to_parent`, lines 199-239, followed by the test `!= 0` of its caller; `plates` is
`self._plates_to_parent(index)` and `ndimParent` the number of plate axes of the parent. -/
def tileWeights (T plates : List Nat) (ndimParent : Nat) (mask : Arr Bool) : Except PyErr (Arr Bool) := do
  let n := max plates.length (max T.length mask.shape.length)
  let q := (padOnes n mask.shape).zip ((padOnes n T).zip (padOnes n plates))
  let plates := q.map fun p => if p.1 = 1 then 1 else p.2.2
  let tiles := q.map fun p => if p.1 = 1 then 1 else p.2.1
  let w ← tileReduce ({ shape := mask.shape, get := fun c => if mask.get c then 1 else 0 } : Arr Nat) tiles plates
  let w ← squeezeToDim w ndimParent
  return { shape := w.shape, get := fun c => w.get c != 0 }

/-- One array of `_compute_message_to_parent`, lines 242-288; `plates` is `self._plates_to_parent(index)`,
`ndimParent` the number of axes of the parent's array. -/
def tileMessage {α : Type _} [CommSemiring α] (T plates dims : List Nat) (ndimParent : Nat) (m : Arr α) :
    Except PyErr (Arr α) := do
  let shapeInd := plates ++ dims
  let tilesInd := T ++ List.replicate dims.length 1
  let n := max tilesInd.length (max shapeInd.length m.shape.length)
  let q := (padOnes n m.shape).zip ((padOnes n tilesInd).zip (padOnes n shapeInd))
  let r := (q.map fun p => if p.1 = 1 then p.2.1 else 1).prod
  let shape := q.map fun p => if p.1 = 1 then 1 else p.2.2
  let tiles := q.map fun p => if p.1 = 1 then 1 else p.2.1
  let y ← tileReduce m tiles shape
  squeezeToDim (npScale r y) ndimParent

/-- `np.tile(X, reps)` with one repetition per axis (given from the left). -/
def npTile {α : Type _} (X : Arr α) (reps : List Nat) : Arr α :=
  { shape := List.zipWith (· * ·) X.shape reps
    get := fun c => X.get fun k => c k % axisLen X.shape k }

/-- One array of `_compute_moments`, lines 290-317. -/
def tileMoments {α : Type _} (T dims : List Nat) (u : Arr α) : Arr α :=
  if u.shape.length > 0 then
    let tilesInd := T ++ List.replicate dims.length 1
    let nd := min tilesInd.length u.shape.length
    let tilesInd := if nd = 0 then tilesInd else tilesInd.drop (tilesInd.length - nd)
    let tilesInd := padOnes (max tilesInd.length u.shape.length) tilesInd
    let tilesInd := (tilesInd.zip u.shape).map fun p => if p.2 > 1 then p.1 else 1
    npTile u tilesInd
  else u

end Verif
