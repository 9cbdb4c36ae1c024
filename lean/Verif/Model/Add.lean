import Verif.Model.Linalg

/-!
# Model of the `Add` node, `bayespy/inference/vmp/nodes/add.py`

The moments of a parent are the pair of arrays `(u[0], u[1])`.
-/

namespace Verif
open Spec

/-- `functools.reduce(np.add, arrays)`; an empty sequence raises `TypeError`. -/
def reduceAdd {α : Type _} [Add α] : List (Arr α) → Except PyErr (Arr α)
  | [] => .error .typeError
  | X :: Xs => Xs.foldlM npAdd X

/-- Body of the inner loop, lines 109-111: `u1 + xi_xj + xj_xi`. -/
def addCross {α : Type _} [Add α] [Mul α] (ndim : Nat) (xi u1 xj : Arr α) : Except PyErr (Arr α) := do
  let xixj ← linOuter xi xj ndim
  let xjxi ← linTranspose xixj ndim
  npAdd (← npAdd u1 xixj) xjxi

/-- The loops over `i` and `j > i`, lines 107-111. -/
def addLoop {α : Type _} [Add α] [Mul α] (ndim : Nat) : Arr α → List (Arr α) → Except PyErr (Arr α)
  | u1, [] => .ok u1
  | u1, x :: xs => do addLoop ndim (← xs.foldlM (addCross ndim x) u1) xs

/-- `_compute_moments(*u_parents)`, lines 97-113. -/
def addMoments {α : Type _} [Add α] [Mul α] (ndim : Nat) (us : List (Arr α × Arr α)) :
    Except PyErr (Arr α × Arr α) := do
  let u0 ← reduceAdd (us.map (·.1))
  let u1 ← reduceAdd (us.map (·.2))
  let u1 ← addLoop ndim u1 (us.map (·.1))
  return (u0, u1)

/-- `_compute_message_to_parent(index, m, *u_parents)`, lines 116-154. -/
def addMessage {α : Type _} [CommSemiring α] (ndim index : Nat) (m : Arr α × Arr α)
    (us : List (Arr α × Arr α)) : Except PyErr (Arr α × Arr α) := do
  let others := us.take index ++ us.drop (index + 1)
  let s ← reduceAdd (others.map (·.1))
  let m0 ← npAdd m.1 (← linMvdot (npScale 2 m.2) s ndim)
  return (m0, m.2)

end Verif
