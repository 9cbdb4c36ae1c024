import Verif.Model.Arr
import Verif.Model.Utils

/-!
# Model of `misc.moveaxis` and `np.transpose`
-/

namespace Verif
open Spec

/-- Does the normalised slice `start:stop:step` select position `p`? -/
def sliceSelects (start stop step : Int) (p : Nat) : Bool :=
  if 0 < step then start ≤ p ∧ (p : Int) < stop ∧ ((p : Int) - start) % step = 0
  else stop < (p : Int) ∧ (p : Int) ≤ start ∧ (start - (p : Int)) % step = 0

/-- `axes[s] += d` on a one-dimensional integer array. -/
def addAtSlice (axes : List Int) (s : PySlice) (d : Int) : Except PyErr (List Int) := do
  let (start, stop, step) ← sliceIndices s axes.length
  return axes.zipIdx.map fun a => if sliceSelects start stop step a.2 then a.1 + d else a.1

/-- `axes[i] = v` with Python's negative indexing. -/
def setAt (axes : List Int) (i v : Int) : Except PyErr (List Int) :=
  let j := if i < 0 then i + axes.length else i
  if j < 0 ∨ j ≥ axes.length then .error .indexError else .ok (axes.set j.toNat v)

/-- The axes computed by `moveaxis(A, axis_from, axis_to)` for a rank-`n` array, `misc.py`
lines 951-965. -/
def moveaxisAxes (n : Nat) (f t : Int) : Except PyErr (List Int) := do
  if (f < 0 ∧ f.natAbs > n) ∨ (f ≥ 0 ∧ f ≥ n) ∨ (t < 0 ∧ t.natAbs > n) ∨ (t ≥ 0 ∧ t ≥ n) then
    throw .valueError
  let axes := (List.range n).map Int.ofNat
  let axes ← addAtSlice axes ⟨some f, some t, none⟩ 1
  let axes ← addAtSlice axes ⟨some f, some t, some (-1)⟩ (-1)
  setAt axes t f

/-- `np.transpose(A, axes)`: the axes (negative ones from the end) must be a permutation; axis `p` of
the result is axis `axes[p]` of `A`. -/
def npTranspose {α : Type _} (X : Arr α) (axes : List Int) : Except PyErr (Arr α) :=
  let n := X.shape.length
  if axes.length ≠ n ∨ ∃ a ∈ axes, a < -n ∨ a ≥ n then .error .valueError
  else
    let perm := axes.map fun a : Int => (if a < 0 then a + n else a).toNat
    if ¬ perm.Nodup then .error .valueError
    else .ok {
      shape := perm.map fun a => X.shape.getD a 0
      get := fun c => X.get fun k => if k < n then c (n - 1 - perm.idxOf (n - 1 - k)) else 0 }

/-- `moveaxis(A, axis_from, axis_to)`, `misc.py` lines 947-966. -/
def moveaxis {α : Type _} (X : Arr α) (f t : Int) : Except PyErr (Arr α) := do
  let axes ← moveaxisAxes X.shape.length f t
  npTranspose X axes

end Verif
