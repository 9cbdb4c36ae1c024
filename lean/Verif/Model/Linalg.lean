import Verif.Model.SumMultiply
import Verif.Model.Message
import Verif.Model.Gate

/-!
# Model of `bayespy/utils/linalg.py`: products over the last axes
-/

namespace Verif
open Spec

/-- `np.reshape` that inserts `num` unit axes before the last `n` axes (the order of the elements does not
change). -/
def npInsertAxes {α : Type _} (X : Arr α) (n num : Nat) : Arr α :=
  { shape := X.shape.take (X.shape.length - n) ++ List.replicate num 1 ++ X.shape.drop (X.shape.length - n)
    get := fun c => X.get fun k => if k < n then c k else c (k + num) }

/-- `outer(A, B, ndim)`, `linalg.py` lines 309-334. -/
def linOuter {α : Type _} [Mul α] (A B : Arr α) (ndim : Nat) : Except PyErr (Arr α) :=
  if ndim > 0 then
    if ndim > A.shape.length then .error .valueError
    else if ndim > B.shape.length then .error .valueError
    else npMul (npInsertAxes A 0 ndim) (npInsertAxes B ndim ndim)
  else npMul A B

/-- `np.swapaxes` of two axes counted from the right; `AxisError` if there are not enough axes. -/
def npSwapAxes {α : Type _} (X : Arr α) (i j : Nat) : Except PyErr (Arr α) :=
  if i < X.shape.length ∧ j < X.shape.length then
    .ok { shape := (List.range X.shape.length).reverse.map fun k => axisLen X.shape (Equiv.swap i j k)
          get := fun c => X.get fun k => c (Equiv.swap i j k) }
  else .error .valueError

/-- `transpose(X, ndim)`, lines 444-450. -/
def linTranspose {α : Type _} (X : Arr α) (ndim : Nat) : Except PyErr (Arr α) :=
  (List.range ndim).foldlM (fun X n => npSwapAxes X n (ndim + n)) X

/-- `misc.add_axes(X, num, axis)` with `axis = -1-n`, `misc.py` lines 1040-1043. -/
def addAxes {α : Type _} (X : Arr α) (num n : Nat) : Except PyErr (Arr α) :=
  (List.range num).foldlM (fun X _ => npExpandDims X n) X

/-- `inner(*args, ndim)`, `linalg.py` lines 299-306. -/
def linInner {α : Type _} [CommSemiring α] (args : List (Arr α)) (ndim : Nat) : Except PyErr (Arr α) :=
  sumMultiply args (.seq (lastAxes ndim)) true false

/-- `mvdot(A, b, ndim)`, lines 407-423. -/
def linMvdot {α : Type _} [CommSemiring α] (A b : Arr α) (ndim : Nat) : Except PyErr (Arr α) := do
  let b ← if ndim > 0 then addAxes b ndim ndim else .ok b
  linInner [A, b] ndim

end Verif
