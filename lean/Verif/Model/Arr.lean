import Mathlib.Algebra.BigOperators.Ring.Finset
import Verif.Spec.Shape
import Verif.Model.Shape

/-!
# NumPy arrays

An array is a shape (NumPy order) and a function from coordinates to values.  A coordinate is a
function `c : Nat → Nat` giving the position along each axis, where **axes are counted from the
right** (`c 0` is the position along the last axis).  Counting from the right makes NumPy's
right-aligned broadcasting the identity on coordinates.  Memory layout, views and dtypes are not
modelled.  The values of `get` outside the shape are irrelevant.
-/

namespace Verif
open Spec

/-- `numpy.ndarray`: shape and values (see the header for the coordinate convention). -/
structure Arr (α : Type _) where
  shape : List Nat
  get : (Nat → Nat) → α

/-- The coordinate of a broadcast read: position `0` along unit (or missing) axes. -/
def restrict (s : List Nat) (c : Nat → Nat) : Nat → Nat :=
  fun k => if axisLen s k = 1 then 0 else c k

/-- Broadcast read `np.broadcast_to(X, big)[c]` (documented meaning of NumPy broadcasting). -/
def Arr.at {α : Type _} (X : Arr α) (c : Nat → Nat) : α := X.get (restrict X.shape c)

/-- `c` is a valid coordinate of an array of shape `s`. -/
def ValidIn (s : List Nat) (c : Nat → Nat) : Prop := ∀ k, c k < axisLen s k

/-- Nested sums: for each `(j, d)` in the list, sum over `0 ≤ t < d` with coordinate `j` set to
`t`. -/
def sumAxes {α : Type _} [AddCommMonoid α] :
    List (Nat × Nat) → ((Nat → Nat) → α) → (Nat → Nat) → α
  | [], f, c => f c
  | (j, d) :: L, f, c => ∑ t ∈ Finset.range d, sumAxes L f (Function.update c j t)

/-- Set the lengths of the axes `-k` for `k ∈ ks` to one (shape of `np.sum(..., keepdims=True)`). -/
def collapseShape (s : List Nat) (ks : List Nat) : List Nat :=
  s.mapIdx fun p d => if s.length - p ∈ ks then 1 else d

/-- `np.sum(X, axis=tuple(-k for k in ks), keepdims=True)` (NumPy's documented meaning).  An axis out
of bounds or given twice raises `AxisError`/`ValueError`, both modelled as `ValueError`. -/
def npSumKeep {α : Type _} [AddCommMonoid α] (X : Arr α) (ks : List Nat) : Except PyErr (Arr α) :=
  if (∀ k ∈ ks, 1 ≤ k ∧ k ≤ X.shape.length) ∧ ks.Nodup then
    .ok { shape := collapseShape X.shape ks
          get := fun c => sumAxes (ks.map fun k => (k - 1, axisLen X.shape (k - 1))) X.at c }
  else .error .valueError

/-- Flat position (row-major, C order) of a coordinate in a shape given last axis first. -/
def flatR : List Nat → (Nat → Nat) → Nat
  | [], _ => 0
  | d :: ds, c => c 0 + d * flatR ds (fun k => c (k + 1))

/-- Inverse of `flatR`. -/
def unflatR : List Nat → Nat → (Nat → Nat)
  | [], _ => fun _ => 0
  | d :: ds, n => fun k => match k with
    | 0 => n % d
    | k + 1 => unflatR ds (n / d) k

/-- `np.reshape(X, s)` (C order; a wrong number of elements raises `ValueError`). -/
def npReshape {α : Type _} (X : Arr α) (s : List Nat) : Except PyErr (Arr α) :=
  if s.prod = X.shape.prod then
    .ok { shape := s, get := fun c => X.get (unflatR X.shape.reverse (flatR s.reverse c)) }
  else .error .valueError

/-- `np.squeeze(X, axis=tuple(range(n)))`: drop the `n` leading axes, which must have unit length
(`ValueError` otherwise; also if there are fewer than `n` axes). -/
def npSqueezeLeading {α : Type _} (X : Arr α) (n : Nat) : Except PyErr (Arr α) :=
  if n ≤ X.shape.length ∧ ∀ d ∈ X.shape.take n, d = 1 then
    .ok { shape := X.shape.drop n, get := X.get }
  else .error .valueError

/-- `np.multiply(X, Y)` with broadcasting. -/
def npMul {α : Type _} [Mul α] (X Y : Arr α) : Except PyErr (Arr α) := do
  let s ← broadcastedShape [X.shape, Y.shape]
  return { shape := s, get := fun c => X.at c * Y.at c }

/-- `r * X` for a Python integer `r`. -/
def npScale {α : Type _} [NatCast α] [Mul α] (r : Nat) (X : Arr α) : Arr α :=
  { shape := X.shape, get := fun c => (r : α) * X.get c }

/-- Length of an `einsum` label: all axes carrying the label must have the same length or length
one, otherwise `ValueError`. -/
def einsumUnify (lens : List Nat) : Except PyErr Nat :=
  lens.foldlM (fun s x => if s = 1 then .ok x else if x = 1 ∨ x = s then .ok s
    else .error .valueError) 1

/-- The lengths of the axes with label `l`. -/
def einsumLens {α : Type _} (ops : List (Arr α × List Nat)) (l : Nat) : List Nat :=
  ops.flatMap fun op => ((op.2.zip op.1.shape).filter (fun p => p.1 = l)).map (·.2)

/-- All distinct labels. -/
def einsumLabels {α : Type _} (ops : List (Arr α × List Nat)) : List Nat :=
  (ops.flatMap (·.2)).dedup

/-- `np.einsum(X1, labels1, X2, labels2, ..., out)` in NumPy's sub-list format with broadcasting:
`out` must not repeat labels and must only use labels of the operands; every operand has one label
per axis; the product of the operands is summed over all labels which are not in `out`. -/
def npEinsum {α : Type _} [CommSemiring α] (ops : List (Arr α × List Nat)) (out : List Nat) :
    Except PyErr (Arr α) := do
  if ¬ (∀ op ∈ ops, op.2.length = op.1.shape.length) then throw .valueError
  if ¬ (out.Nodup ∧ ∀ l ∈ out, l ∈ einsumLabels ops) then throw .valueError
  let lens ← (einsumLabels ops).mapM fun l => do return (l, ← einsumUnify (einsumLens ops l))
  let len : Nat → Nat := fun l => (lens.lookup l).getD 1
  return {
    shape := out.map len
    get := fun c =>
      sumAxes (((einsumLabels ops).filter (· ∉ out)).map fun l => (l, len l))
        (fun e => (ops.map fun op => op.1.at fun k => e (op.2.reverse.getD k 0)).prod)
        (fun l => if l ∈ out then c (out.length - 1 - out.idxOf l) else 0) }

end Verif
