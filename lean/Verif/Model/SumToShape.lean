import Verif.Model.Arr

/-!
# Model of `misc.sum_to_shape` and `misc.repeat_to_shape`
-/

namespace Verif
open Spec

/-- `np.sum(X, axis=tuple(range(-ndim, -m)))` for `m ≤ ndim`: sum over and remove all axes but the
last `m`. -/
def npSumLeading {α : Type _} [AddCommMonoid α] (X : Arr α) (m : Nat) : Arr α :=
  { shape := X.shape.drop (X.shape.length - m)
    get := fun c => sumAxes (((List.range X.shape.length).filter (m ≤ ·)).map
      fun k => (k, axisLen X.shape k)) X.at c }

/-- The loop of `sum_to_shape` over `i = -ndim(Y), ..., -1`, `misc.py` lines 1117-1124; axis `-k` is
represented by `k`; an axis is summed only if it is longer than one. -/
def sumToShapeAxes (ys s : List Nat) : Except PyErr (List Nat) :=
  (List.range ys.length).foldlM (fun axes p => do
    let k := ys.length - p
    let sk ← negIdx s k
    let yk ← negIdx ys k
    if sk = 1 then
      if yk > 1 then return axes ++ [k] else return axes
    else if yk ≠ sk then throw .valueError
    else return axes) []

/-- `sum_to_shape(X, s)`, `misc.py` lines 1102-1127. -/
def sumToShape {α : Type _} [AddCommMonoid α] (X : Arr α) (s : List Nat) : Except PyErr (Arr α) := do
  let Y := if X.shape.length > s.length then npSumLeading X s.length else X
  let axes ← sumToShapeAxes Y.shape s
  npSumKeep Y axes

/-- `np.repeat(A, n, axis=-(k+1))`: every element along the axis is repeated `n` times. -/
def npRepeat {α : Type _} (A : Arr α) (n k : Nat) : Arr α :=
  { shape := A.shape.mapIdx fun p d => if A.shape.length - 1 - p = k then d * n else d
    get := fun c => A.get (Function.update c k (c k / n)) }

/-- `repeat_to_shape(A, s)`, `misc.py` lines 1129-1144; `reversed(range(len(s)))` visits the axes
from the right. -/
def repeatToShape {α : Type _} (A : Arr α) (s : List Nat) : Except PyErr (Arr α) := do
  let t := A.shape
  if t.length > s.length then throw .exception
  let t := List.replicate (s.length - t.length) 1 ++ t
  let A ← npReshape A t
  (List.range s.length).foldlM (fun A k => do
    let i := s.length - 1 - k
    if s.getD i 0 ≠ t.getD i 0 then
      if t.getD i 0 ≠ 1 then throw .exception
      else return npRepeat A (s.getD i 0) k
    else return A) A

end Verif
