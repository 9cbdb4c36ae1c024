import Verif.Model.Arr

/-!
# Model of the sum-product helpers in `bayespy/utils/misc.py`

Negative axes `-k` (`k ≥ 1`) produced by the code itself are represented by the natural number `k`.
-/

namespace Verif
open Spec

/-- The double check of `broadcasting_multiplier`, `misc.py` lines 781-791: first all `args` are
broadcast with `plates`, then all must be sub-shapes. -/
def bmultCheck (plates : List Nat) (args : List (List Nat)) : Except PyErr Unit := do
  args.forM fun a => do let _ ← broadcastedShape [plates, a]
  args.forM fun a => do
    let b ← isShapeSubset a plates
    if !b then throw .valueError

/-- Inner loop of `broadcasting_multiplier`, `misc.py` lines 795-799: `mult` stays true iff every
argument is missing or unit at axis `-k`. -/
def bmultAxis (k : Nat) : Bool → List (List Nat) → Except PyErr Bool
  | mult, [] => .ok mult
  | mult, a :: as =>
    if k > a.length then bmultAxis k mult as
    else do
      let x ← negIdx a k
      if x = 1 then bmultAxis k mult as else bmultAxis k false as

/-- `broadcasting_multiplier(plates, *args)`, `misc.py` lines 761-802; the loop
`for j in range(-len(plates),0)` visits `-j = len, ..., 1`. -/
def broadcastingMultiplier (plates : List Nat) (args : List (List Nat)) : Except PyErr Nat := do
  bmultCheck plates args
  (List.range plates.length).foldlM (fun r p => do
    let k := plates.length - p
    let mult ← bmultAxis k true args
    if mult then return r * (← negIdx plates k) else return r) 1

/-- One iteration of `axes_to_collapse` for axis `-k`, `misc.py` lines 1093-1099; `true` = append. -/
def axisToCollapse (shapeX shapeTo : List Nat) (k : Nat) : Except PyErr Bool := do
  let x ← negIdx shapeX k
  if x ≠ 1 then
    if k > shapeTo.length then return true
    else
      let t ← negIdx shapeTo k
      if t = 1 then return true
      else if t ≠ x then throw .exception
      else return false
  else return false

/-- `axes_to_collapse(shape_x, shape_to)`, `misc.py` lines 1088-1100.  The result lists `-j` for the
axes `j` (negative) to collapse. -/
def axesToCollapse (shapeX shapeTo : List Nat) : Except PyErr (List Nat) :=
  (List.range shapeX.length).foldlM (fun s p => do
    let k := shapeX.length - p
    if ← axisToCollapse shapeX shapeTo k then return s ++ [k] else return s) []

/-- `squeeze_to_dim(X, dim)`, `misc.py` lines 1083-1085 (`range` of a negative number is empty). -/
def squeezeToDim {α : Type _} (X : Arr α) (dim : Nat) : Except PyErr (Arr α) :=
  npSqueezeLeading X (X.shape.length - dim)

/-- `functools.reduce(np.multiply, arrays)`; an empty list raises `TypeError`. -/
def reduceMul {α : Type _} [Mul α] : List (Arr α) → Except PyErr (Arr α)
  | [] => .error .typeError
  | X :: Xs => Xs.foldlM npMul X

/-- The `axis` argument of `sum_multiply`: `None`, a scalar, or a sequence of integers. -/
inductive AxisArg where
  | none
  | scalar (a : Int)
  | seq (as : List Int)

/-- The positions of the kept axes, `sum_multiply`, `misc.py` lines 864-888: `maxDim` is the rank of
the product.  With `sumaxis` the comprehension keeps the axes which are not listed (negative numbers
count from the end; numbers out of range are silently ignored); without it the listed axes are
normalised and sorted (`for i in axis` raises `TypeError` if `axis` is a scalar). -/
def keptAxes (maxDim : Nat) (axis : AxisArg) (sumaxis : Bool) : Except PyErr (List Nat) := do
  let axes : List Int ←
    if sumaxis then
      match axis with
      | .none => pure []
      | .scalar a => pure (((List.range maxDim).map Int.ofNat).filter
          fun i => i ∉ [a] ∧ (-(maxDim : Int) + i) ∉ [a])
      | .seq as => pure (((List.range maxDim).map Int.ofNat).filter
          fun i => i ∉ as ∧ (-(maxDim : Int) + i) ∉ as)
    else
      match axis with
      | .none => pure ((List.range maxDim).map Int.ofNat)
      | .scalar _ => throw .typeError
      | .seq as => pure ((as.map fun i : Int => if i ≥ 0 then i else i + (maxDim : Int)).mergeSort)
  if ∃ i ∈ axes, i < 0 ∨ i ≥ maxDim then throw .valueError
  return axes.map Int.toNat

/-- Shape loop for `keepdims`, `misc.py` lines 921-930, over the remaining positions `k`; `ys` are
the remaining lengths of `y` (reading past its end raises `IndexError`). -/
def keepdimsShape (axes : List Nat) : List Nat → List Nat → Except PyErr (List Nat)
  | [], _ => .ok []
  | k :: ks, ys =>
    if k ∈ axes then
      match ys with
      | [] => .error .indexError
      | y :: ys => do return y :: (← keepdimsShape axes ks ys)
    else do return 1 :: (← keepdimsShape axes ks ys)

/-- `sum_multiply(*args, axis, sumaxis, keepdims)`, `misc.py` lines 851-933.  The work-around for an
old NumPy bug with scalar arguments (lines 907-917) is not modelled: `npEinsum` has the documented
meaning, which is also what the work-around computes. -/
def sumMultiply {α : Type _} [CommSemiring α] (args : List (Arr α)) (axis : AxisArg)
    (sumaxis keepdims : Bool) : Except PyErr (Arr α) := do
  if args.length = 0 then throw .valueError
  let maxDim := args.foldl (fun m X => max m X.shape.length) 0
  let axes ← keptAxes maxDim axis sumaxis
  let y ← npEinsum
    (args.map fun X => (X, (List.range X.shape.length).map (maxDim - X.shape.length + ·))) axes
  if keepdims then
    npReshape y (← keepdimsShape axes (List.range maxDim) y.shape)
  else return y

/-- `get_plates`, `misc.py` lines 810-814: `x[:-ndim]`. -/
def getPlates (ndim : Nat) (s : List Nat) : List Nat := s.take (s.length - ndim)

/-- Body of the loop of `sum_multiply_to_plates`, `misc.py` lines 826-832, for the array number
`ind`.  (`plates_arrays` is not updated inside the loop, so the iterations are independent.) -/
def collapseOne {α : Type _} [AddCommMonoid α] (tgt : List Nat) (ndim : Nat)
    (platesArrays : List (List Nat)) (ind : Nat) (X : Arr α) : Except PyErr (Arr α) := do
  let others := platesArrays.take ind ++ platesArrays.drop (ind + 1)
  let platesWithout ← broadcastedShape (tgt :: others)
  let ax ← axesToCollapse (getPlates ndim X.shape) platesWithout
  if ax ≠ [] then npSumKeep X (ax.map (· + ndim)) else return X

/-- The part of `sum_multiply_to_plates` after the multiplier is known, `misc.py` lines 825-843. -/
def sumToPlatesCore {α : Type _} [CommSemiring α] (arrays : List (Arr α)) (tgt : List Nat)
    (ndim : Nat) : Except PyErr (Arr α) := do
  let platesArrays := arrays.map fun X => getPlates ndim X.shape
  let arrays ← (arrays.zipIdx).mapM fun p => collapseOne tgt ndim platesArrays p.2 p.1
  let productPlates ← broadcastedShape (arrays.map fun X => getPlates ndim X.shape)
  let ax ← axesToCollapse productPlates tgt
  let y ← if ax ≠ [] then
      sumMultiply arrays (.seq (ax.map fun k => -((k + ndim : Nat) : Int))) true true
    else reduceMul arrays
  squeezeToDim y (tgt.length + ndim)

/-- `sum_multiply_to_plates(*arrays, to_plates, from_plates, ndim)`, `misc.py` lines 805-844. -/
def sumMultiplyToPlates {α : Type _} [CommSemiring α] (arrays : List (Arr α)) (tgt : List Nat)
    (from? : Option (List Nat)) (ndim : Nat) : Except PyErr (Arr α) := do
  let platesArrays := arrays.map fun X => getPlates ndim X.shape
  let productPlates ← broadcastedShape platesArrays
  let r ← match from? with
    | none => pure 1
    | some f => broadcastingMultiplier f [productPlates, tgt]
  let y ← sumToPlatesCore arrays tgt ndim
  return npScale r y

end Verif
