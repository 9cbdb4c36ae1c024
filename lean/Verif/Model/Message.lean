import Verif.Model.SumMultiply

/-!
# Model of the message and mask functions of `bayespy/inference/vmp/nodes/node.py`

One array of a message is treated at a time (the code loops over the arrays independently; `None`
messages are skipped).  Callable messages (black-box inference) are not modelled.
-/

namespace Verif
open Spec

/-- `misc.squeeze(X)`, `misc.py` lines 1068-1080: the leading unit axes are removed (the reshape keeps
all elements, and coordinates are counted from the right). -/
def squeezeLeading {α : Type _} (X : Arr α) : Arr α :=
  { shape := X.shape.dropWhile (· = 1), get := X.get }

/-- `misc.add_trailing_axes(X, n)`, `misc.py` lines 1040-1053. -/
def addTrailingAxes {α : Type _} (X : Arr α) (n : Nat) : Arr α :=
  { shape := X.shape ++ List.replicate n 1, get := fun c => X.get fun k => c (k + n) }

/-- `np.where(mask, X, 0)` with broadcasting. -/
def npWhere {α : Type _} [Zero α] (mask : Arr Bool) (X : Arr α) : Except PyErr (Arr α) := do
  let s ← broadcastedShape [mask.shape, X.shape]
  return { shape := s, get := fun c => if mask.at c then X.at c else 0 }

/-- Replace any exception by `ValueError`, as the bare `except` in lines 623-631 does. -/
def asValueError {α : Type _} : Except PyErr α → Except PyErr α
  | .ok a => .ok a
  | .error _ => .error .valueError

/-- `from_shape`, lines 633-640. -/
def messageFromShape (platesSelf dims shapeM : List Nat) : Except PyErr (List Nat) :=
  if dims.length > 0 then do
    let d ← broadcastedShape [shapeM.drop (shapeM.length - dims.length), dims]
    return platesSelf ++ d
  else return platesSelf

/-- One array `m` of the message in `Node._message_to_parent`, `node.py` lines 570-655, from the line
`mask = misc.squeeze(mask)` on.  `platesSelf` is `_plates_to_parent(index)`, `platesParent` and `dims` are
those of the parent, `multSelf` is `plates_multiplier` and `multParent` is
`_plates_multiplier_from_parent(index)`. -/
def messageToParent {α : Type} [CommSemiring α] (platesSelf platesParent dims multSelf multParent : List Nat)
    (mask : Arr Bool) (m : Arr α) : Except PyErr (Arr α) := do
  let mask := squeezeLeading mask
  let r ← asValueError (broadcastingMultiplier multSelf [multParent])
  let ndim := dims.length
  let fromShape ← messageFromShape platesSelf dims m.shape
  let toShape := platesParent ++ dims
  let maskI := addTrailingAxes mask ndim
  let w ← npWhere maskI m
  let y ← sumMultiplyToPlates [w] toShape (some fromShape) 0
  return npScale r y

/-- Nested disjunctions, the boolean version of `sumAxes`. -/
def anyAxes : List (Nat × Nat) → ((Nat → Nat) → Bool) → (Nat → Nat) → Bool
  | [], f, c => f c
  | (j, d) :: L, f, c => (List.range d).any fun t => anyAxes L f (Function.update c j t)

/-- `np.any(X, axis=tuple(-k for k in ks), keepdims=True)`; bad axes raise. -/
def npAnyKeep (X : Arr Bool) (ks : List Nat) : Except PyErr (Arr Bool) :=
  if (∀ k ∈ ks, 1 ≤ k ∧ k ≤ X.shape.length) ∧ ks.Nodup then
    .ok { shape := collapseShape X.shape ks
          get := fun c => anyAxes (ks.map fun k => (k - 1, axisLen X.shape (k - 1))) X.at c }
  else .error .valueError

/-- `Node._mask_to_parent(index)`, `node.py` lines 492-526, where `mask` is
`self._compute_weights_to_parent(index, self.mask) != 0`. -/
def maskToParent (platesSelf platesParent : List Nat) (mask : Arr Bool) : Except PyErr (Arr Bool) := do
  let b ← isShapeSubset mask.shape platesSelf
  if !b then throw .valueError
  let s ← axesToCollapse mask.shape platesParent
  let mask ← npAnyKeep mask s
  squeezeToDim mask platesParent.length

/-- `X + Y` with broadcasting. -/
def npAdd {α : Type _} [Add α] (X Y : Arr α) : Except PyErr (Arr α) := do
  let s ← broadcastedShape [X.shape, Y.shape]
  return { shape := s, get := fun c => X.at c + Y.at c }

/-- One array of `Node._message_from_children`, `node.py` lines 657-688: start with zeros of shape
`dims`, add the messages of the children (`none` is an empty message).  Adding in place and adding into a
new array give the same array. -/
def messageFromChildren {α : Type} [AddCommMonoid α] (plates dims : List Nat) (ms : List (Option (Arr α))) :
    Except PyErr (Arr α) :=
  ms.foldlM (fun (msg : Arr α) m => match m with
    | none => pure msg
    | some m => do
      let _ ← broadcastedShape [plates ++ dims, m.shape]
      npAdd msg m) { shape := dims, get := fun _ => 0 }

end Verif
