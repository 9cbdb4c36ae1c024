import Verif.Model.Arr
import Verif.Spec.Arr

/-!
# Model of the fixed moments of categorical variables

`bayespy/inference/vmp/nodes/categorical.py`, `CategoricalMoments.compute_fixed_moments` (lines 31-47) and
`CategoricalDistribution.compute_fixed_moments_and_f` (lines 91-112) have the same body; the latter also returns
`f = 0`.  The type of the elements of the array matters: `misc.isinteger` (`misc.py` lines 698-700) accepts
integers and booleans, and numpy indexes differently with them.
-/

namespace Verif
open Spec

/-- An array with the type of its elements; `other`: floats, strings, objects, ... -/
inductive PyArr where
  | int (x : Arr Int)
  | bool (x : Arr Bool)
  | other (shape : List Nat)

/-- `np.ravel(x)` as a list -/
def npRavel {β : Type} (x : Arr β) : List β :=
  (List.range x.shape.prod).map fun n => x.get (unflatR x.shape.reverse n)

/-- `np.any` of a test of the elements -/
def npAnyOf {β : Type} (x : Arr β) (p : β → Bool) : Bool := (indices x.shape).any fun i => p (x.get (coord i))

/-- Broadcasting of two index vectors. -/
def pairIndices (rows cols : List Nat) : Except PyErr (List (Nat × Nat)) :=
  if rows.length = cols.length then .ok (rows.zip cols)
  else if cols.length = 1 then .ok (rows.flatMap fun r => cols.map fun c => (r, c))
  else if rows.length = 1 then .ok (rows.flatMap fun r => cols.map fun c => (r, c))
  else .error .indexError

/-- `u0[(rows, cols)] = 1` for a matrix and indices within its bounds -/
def npSetOnes {α : Type} [One α] (X : Arr α) (rows cols : List Nat) : Except PyErr (Arr α) :=
  match pairIndices rows cols with
  | .error e => .error e
  | .ok ps => .ok { shape := X.shape, get := fun c => if (c 1, c 0) ∈ ps then 1 else X.get c }

/-- `np.zeros((n, K))` -/
def zerosMat {α : Type} [Zero α] (n K : Nat) : Arr α := { shape := [n, K], get := fun _ => 0 }

/-- The column indices as numpy sees them: an array of booleans of the length of the axis stands for the positions of
its true elements, and any other length raises `IndexError`. -/
def columnIndices (K : Nat) : PyArr → Except PyErr (List Nat)
  | .int x => .ok ((npRavel x).map Int.toNat)
  | .bool x =>
    if (npRavel x).length ≠ K then .error .indexError
    else .ok ((List.range K).filter fun k => (npRavel x)[k]?.getD false)
  | .other _ => .error .indexError

/-- `np.shape(x)` -/
def PyArr.shape : PyArr → List Nat
  | .int x => x.shape
  | .bool x => x.shape
  | .other s => s

/-- `misc.isinteger(x)` -/
def PyArr.isInteger : PyArr → Bool
  | .other _ => false
  | _ => true

/-- `np.any(x < 0) or np.any(x >= K)` -/
def PyArr.outOfRange (K : Nat) : PyArr → Bool
  | .int x => npAnyOf x (fun v => v < 0) || npAnyOf x (fun v => v ≥ K)
  | .bool x => npAnyOf x fun v => v.toNat ≥ K
  | .other _ => false

/-- `compute_fixed_moments(x)`, `categorical.py` lines 36-47 (and 97-107). -/
def categoricalFixed (α : Type) [Zero α] [One α] (K : Nat) (x : PyArr) : Except PyErr (Arr α) := do
  if !x.isInteger then throw .valueError
  else if x.outOfRange K then throw .valueError
  else
    let cols ← columnIndices K x
    let u0 ← npSetOnes (zerosMat x.shape.prod K : Arr α) (List.range x.shape.prod) cols
    npReshape u0 (x.shape ++ [K])

/-- `CategoricalDistribution.compute_fixed_moments_and_f(x)`, lines 91-112. -/
def categoricalFixedF (α : Type) [Zero α] [One α] (K : Nat) (x : PyArr) : Except PyErr (List (Arr α) × Arr α) := do
  let u ← categoricalFixed α K x
  return ([u], { shape := [], get := fun _ => 0 })

end Verif
