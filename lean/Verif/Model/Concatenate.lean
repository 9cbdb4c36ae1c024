import Verif.Model.Message

/-!
# Model of the `Concatenate` node, `bayespy/inference/vmp/nodes/concatenate.py`

One array of the moments or messages is treated at a time.  The negative array axis (plate axis minus the
number of variable axes) is represented by its right position `a`, that is `axis = -(a+1)`.
-/

namespace Verif
open Spec

/-- `shapes[i][axis] = 1` if the array has this axis, lines 150-151. -/
def setUnit (s : List Nat) (a : Nat) : List Nat :=
  if a < s.length then s.set (s.length - (a + 1)) 1 else s

/-- Element of `np.concatenate` along the axis `a`. -/
def concatGet {α : Type _} [Zero α] (a : Nat) : List (Arr α) → (Nat → Nat) → α
  | [], _ => 0
  | X :: Xs, c =>
    if c a < axisLen X.shape a then X.get c
    else concatGet a Xs (Function.update c a (c a - axisLen X.shape a))

/-- `np.concatenate(Xs, axis)`: at least one array, and all shapes equal except for the axis, otherwise
`ValueError`. -/
def npConcatenate {α : Type _} [Zero α] (Xs : List (Arr α)) (a : Nat) : Except PyErr (Arr α) :=
  match Xs with
  | [] => .error .valueError
  | X :: _ =>
    if a < X.shape.length ∧ ∀ Y ∈ Xs, setUnit Y.shape a = setUnit X.shape a then
      .ok { shape := X.shape.set (X.shape.length - (a + 1)) ((Xs.map fun Y => axisLen Y.shape a).sum)
            get := concatGet a Xs }
    else .error .valueError

/-- One array of `Concatenate._compute_moments`, lines 133-170; `lengths` is `self._lengths`. -/
def concatMoments {α : Type _} [CommSemiring α] (us : List (Arr α)) (lengths : List Nat) (a : Nat) :
    Except PyErr (Arr α) := do
  let shapes := us.map fun u => setUnit u.shape a
  let bcShape ← broadcastedShape shapes
  let bcShapes ← lengths.mapM fun l => broadcastedShape [bcShape, l :: List.replicate a 1]
  let ui ← (us.zip bcShapes).mapM fun p => npMul p.1 ({ shape := p.2, get := fun _ => 1 } : Arr α)
  npConcatenate ui a

/-- The part `X[..., i:j, ...]` of the axis `a`. -/
def segment {α : Type _} (X : Arr α) (a i j : Nat) : Arr α :=
  let n := axisLen X.shape a
  { shape := X.shape.set (X.shape.length - (a + 1)) (min j n - min i n)
    get := fun c => X.get (Function.update c a (c a + i)) }

/-- `self._indices`, lines 69-71: the start of each parent and the end of the last one. -/
def concatIndices (lengths : List Nat) : List Nat :=
  (List.range (lengths.length + 1)).map fun i => (lengths.take i).sum

/-- `np.split(X, idx, axis)[1]`: the part from the first index to the second one, or to the end if there is
no second one; `IndexError` if there is no index. -/
def npSplit1 {α : Type _} (X : Arr α) (idx : List Nat) (a : Nat) : Except PyErr (Arr α) :=
  match idx with
  | [] => .error .indexError
  | [i] => .ok (segment X a i (axisLen X.shape a))
  | i :: j :: _ => .ok (segment X a i j)

/-- One array of `Concatenate._compute_message_to_parent`, lines 118-130. -/
def concatMessage {α : Type _} (m : Arr α) (lengths : List Nat) (a index : Nat) : Except PyErr (Arr α) :=
  let indices := ((concatIndices lengths).drop index).take 2
  if a < m.shape.length ∧ axisLen m.shape a > 1 then npSplit1 m indices a else .ok m

/-- `Concatenate._compute_weights_to_parent`, lines 106-115. -/
def concatWeights {α : Type _} (w : Arr α) (lengths : List Nat) (a index : Nat) : Except PyErr (Arr α) :=
  let indices := ((concatIndices lengths).drop index).take 1
  if a < w.shape.length ∧ axisLen w.shape a > 1 then npSplit1 w indices a else .ok w

/-- `Concatenate._compute_plates_to_parent`, lines 82-85. -/
def concatPlatesToParent (parentPlates : List Nat) (a : Nat) (plates : List Nat) : List Nat :=
  plates.set (plates.length - (a + 1)) (axisLen parentPlates a)

/-- `Concatenate._compute_plates_from_parent`, lines 88-93. -/
def concatPlatesFromParent (lengths : List Nat) (a : Nat) (plates : List Nat) : List Nat :=
  plates.set (plates.length - (a + 1)) lengths.sum

end Verif
