import Verif.Model.Add
import Verif.Model.Concatenate

/-!
# Model of `ConcatGaussian`, `bayespy/inference/vmp/nodes/concat_gaussian.py`

The moments of a parent are the pair of arrays `(u[0], u[1])`.
-/

namespace Verif
open Spec

/-- `misc.broadcast(*arrays, ignore_axis=(-1, ..., -k))`, `misc.py` lines 1476-1514. -/
def broadcastIgnore {α : Type _} [CommSemiring α] (Xs : List (Arr α)) (k : Nat) :
    Except PyErr (List (Arr α)) := do
  let cut := Xs.map fun X => (List.range k).foldl setUnit X.shape
  let full ← broadcastedShape cut
  Xs.mapM fun X => npMul ({ shape := full, get := fun _ => 1 } : Arr α) X

/-- `misc.concatenate(*arrays, axis=-1)`, lines 1547-1558. -/
def concatLast {α : Type _} [CommSemiring α] (Xs : List (Arr α)) : Except PyErr (Arr α) := do
  npConcatenate (← broadcastIgnore Xs 1) 0

/-- `Y[..., i0:i1, j0:j1] = A`: the value must broadcast to the selected part, otherwise `ValueError`. -/
def npAssignBlock {α : Type _} (Y : Arr α) (i0 i1 j0 j1 : Nat) (A : Arr α) : Except PyErr (Arr α) :=
  let sel := Y.shape.take (Y.shape.length - 2) ++ [i1 - i0, j1 - j0]
  if 2 ≤ Y.shape.length then
    if A.shape.length ≤ sel.length ∧ ∀ k < sel.length, axisLen A.shape k = 1 ∨ axisLen A.shape k = axisLen sel k then
      .ok { shape := Y.shape
            get := fun c => if i0 ≤ c 1 ∧ c 1 < i1 ∧ j0 ≤ c 0 ∧ c 0 < j1 then
                A.at (consC (c 0 - j0) (consC (c 1 - i0) fun k => c (k + 2)))
              else Y.get c }
    else .error .valueError
  else .error .indexError

/-- The loop of `block_diag`, lines 1535-1542. -/
def blockDiagLoop {α : Type _} : Nat → Nat → Arr α → List (Arr α) → Except PyErr (Arr α)
  | _, _, Y, [] => .ok Y
  | i, j, Y, A :: As => do
    let i' := i + axisLen A.shape 1
    let j' := j + axisLen A.shape 0
    blockDiagLoop i' j' (← npAssignBlock Y i i' j j' A) As

/-- `misc.block_diag(*arrays)`, lines 1517-1544. -/
def blockDiag {α : Type _} [CommSemiring α] (Xs : List (Arr α)) : Except PyErr (Arr α) := do
  let Xs ← broadcastIgnore Xs 2
  match Xs with
  | [] => throw .indexError
  | X :: _ =>
    let plates := X.shape.take (X.shape.length - 2)
    let M := (Xs.map fun X => axisLen X.shape 1).sum
    let N := (Xs.map fun X => axisLen X.shape 0).sum
    blockDiagLoop 0 0 ({ shape := plates ++ [M, N], get := fun _ => 0 } : Arr α) Xs

/-- The loop over `n`, `concat_gaussian.py` lines 87-94; `misc.T` swaps the last two axes. -/
def ccInner {α : Type _} [CommSemiring α] (xm : Arr α) (i0 i1 : Nat) :
    Nat → Arr α → List (Arr α) → Except PyErr (Arr α)
  | _, xx, [] => .ok xx
  | j0, xx, xn :: rest => do
    let j1 := j0 + axisLen xn.shape 0
    let xmxn ← linOuter xm xn 1
    let xx ← npAssignBlock xx i0 i1 j0 j1 xmxn
    let xx ← npAssignBlock xx j0 j1 i0 i1 (← npSwapAxes xmxn 0 1)
    ccInner xm i0 i1 j1 xx rest

/-- The loop over `m`, lines 85-95; `prev` are the nodes before `m`. -/
def ccOuter {α : Type _} [CommSemiring α] (prev : List (Arr α)) :
    Nat → Arr α → List (Arr α) → Except PyErr (Arr α)
  | _, xx, [] => .ok xx
  | i0, xx, xm :: rest => do
    let i1 := i0 + axisLen xm.shape 0
    let xx ← ccInner xm i0 i1 0 xx prev
    ccOuter (prev ++ [xm]) i1 xx rest

/-- `_compute_moments(*u_nodes)`, lines 74-97. -/
def ccMoments {α : Type _} [CommSemiring α] (us : List (Arr α × Arr α)) : Except PyErr (Arr α × Arr α) := do
  let x ← concatLast (us.map (·.1))
  let xx ← blockDiag (us.map (·.2))
  let xPlates := x.shape.take (x.shape.length - 1)
  let xx ← npMul ({ shape := xPlates ++ [1, 1], get := fun _ => 1 } : Arr α) xx
  let xx ← ccOuter [] 0 xx (us.map (·.1))
  return (x, xx)

/-- The loop over `j`, lines 108-114; `np.einsum('...ij,...j->...i', A, b)` is `mvdot(A, b)`. -/
def ccMessageLoop {α : Type _} [CommSemiring α] (r : List Nat) (i : Nat) (m1 : Arr α) :
    Nat → Arr α → List (Arr α × Arr α) → Except PyErr (Arr α)
  | _, m0, [] => .ok m0
  | j, m0, u :: rest => do
    if j = i then ccMessageLoop r i m1 (j + 1) m0 rest
    else
      let A := segment (segment m1 1 (r.getD i 0) (r.getD (i + 1) 0)) 0 (r.getD j 0) (r.getD (j + 1) 0)
      ccMessageLoop r i m1 (j + 1) (← npAdd m0 (npScale 2 (← linMvdot A u.1 1))) rest

/-- `_compute_message_to_parent(i, m, *u_nodes)`, lines 100-116; `Ls` are the lengths of the parents. -/
def ccMessage {α : Type _} [CommSemiring α] (Ls : List Nat) (i : Nat) (m : Arr α × Arr α)
    (us : List (Arr α × Arr α)) : Except PyErr (Arr α × Arr α) := do
  let r := concatIndices Ls
  let m0 := segment m.1 0 (r.getD i 0) (r.getD (i + 1) 0)
  let m1 := segment (segment m.2 1 (r.getD i 0) (r.getD (i + 1) 0)) 0 (r.getD i 0) (r.getD (i + 1) 0)
  let m0 ← ccMessageLoop r i m.2 0 m0 us
  return (m0, m1)

end Verif
