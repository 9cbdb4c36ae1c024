import Verif.Model.SumMultiply
import Verif.Model.Message

/-!
# Model of `SumMultiply` and `Dot`, `bayespy/inference/vmp/nodes/dot.py`

The constructor is modelled after the arguments have been separated into nodes and key sets (the
string format is `smParse`).  Python's `list(set(...))` has an unspecified order, so the function
`setList` is a parameter: any function listing the members of the given list once.  A node is its
`dims[0]`; the conversion of the parents to delta, Gaussian or Gaussian-gamma moments is modelled in
`Model/Convert.lean` and represented here by the flag `isConst` (delta moments).  Plates of the node
and masks are inputs.  The unused attribute `get_parameters` is not modelled.
-/

namespace Verif
open Spec

/-! ## The string format -/

/-- `string.split('->')`: pieces between non-overlapping occurrences of the separator. -/
def splitArrow : List Char → List (List Char)
  | [] => [[]]
  | '-' :: '>' :: cs => [] :: splitArrow cs
  | c :: cs => match splitArrow cs with
    | [] => [[c]]
    | s :: ss => (c :: s) :: ss

/-- `string.split(',')`. -/
def splitComma : List Char → List (List Char)
  | [] => [[]]
  | ',' :: cs => [] :: splitComma cs
  | c :: cs => match splitComma cs with
    | [] => [[c]]
    | s :: ss => (c :: s) :: ss

/-- Parsing of the string format, `dot.py` lines 132-153: the key sets and the output keys
(single characters).  White space is ASCII white space here.  `nodes` is the number of given nodes. -/
def smParse (string : List Char) (nodes : Nat) :
    Except PyErr (List (List Char) × List Char) := do
  let strings := splitArrow (string.filter fun c => !c.isWhitespace)
  if strings.length > 2 then throw .valueError
  let stringsIn := splitComma (strings.headD [])
  let stringOut := if strings.length = 2 then strings.getD 1 [] else []
  if stringsIn.length ≠ nodes then throw .valueError
  return (stringsIn, stringOut)

/-- The string given by `Dot`, `dot.py` line 643, for `n` arguments: `'i' + ',i'*(n-1)`. -/
def dotString (n : Nat) : List Char := 'i' :: (List.replicate (n - 1) [',', 'i']).flatten

/-! ## The constructor -/

/-- One node in the loop computing `broadcasted_size[key]`, `dot.py` lines 255-273. -/
def smSizeStep {κ : Type _} [DecidableEq κ] (key : κ) (size : Nat) (nd : List κ × List Nat) :
    Except PyErr Nat :=
  if key ∈ nd.1 then
    let nodeSize := nd.2.getD (nd.1.idxOf key) 0
    if nodeSize ≠ size then
      if size = 1 then .ok nodeSize
      else if nodeSize ≠ 1 then .error .valueError
      else .ok size
    else .ok size
  else .ok size

/-- `broadcasted_size[key]`, `dot.py` lines 252-273. -/
def smSize {κ : Type _} [DecidableEq κ] (nodes : List (List κ × List Nat)) (key : κ) :
    Except PyErr Nat :=
  nodes.foldlM (smSizeStep key) 1

/-- The attributes set by the constructor. -/
structure SMNode where
  nKeys : Nat
  outKeys : List Nat
  inKeys : List (List Nat)
  /-- shape of the variable (`dims[0]`) -/
  shape : List Nat

/-- The check of one node, `dot.py` lines 226-237: as many keys as axes, all different. -/
def smCheckNode {κ : Type _} (setList : List κ → List κ) (nd : List κ × List Nat) :
    Except PyErr PUnit :=
  if nd.2.length ≠ nd.1.length then .error .valueError
  else if (setList nd.1).length ≠ nd.1.length then .error .valueError
  else .ok ⟨⟩

/-- The check of one output key, `dot.py` lines 243-246. -/
def smCheckOut {κ : Type _} [DecidableEq κ] (fullKeyset : List κ) (key : κ) : Except PyErr PUnit :=
  if key ∉ fullKeyset then .error .valueError else .ok ⟨⟩

/-- `SumMultiply.__init__`, `dot.py` lines 112-115, 170-175, 223-287.  `nodes` lists the key set and `dims[0]` of each
input. -/
def smInit {κ : Type _} [DecidableEq κ] (setList : List κ → List κ)
    (nodes : List (List κ × List Nat)) (keysOut : List κ) : Except PyErr SMNode := do
  if nodes.length < 1 then throw .valueError
  let fullKeyset := setList (nodes.flatMap (·.1))
  nodes.forM (smCheckNode setList)
  if keysOut.length ≠ (setList keysOut).length then throw .valueError
  keysOut.forM (smCheckOut fullKeyset)
  let sizes ← fullKeyset.mapM (smSize nodes)
  return {
    nKeys := fullKeyset.length
    outKeys := keysOut.map fullKeyset.idxOf
    inKeys := nodes.map fun nd => nd.1.map fullKeyset.idxOf
    shape := keysOut.map fun key => sizes.getD (fullKeyset.idxOf key) 1 }

/-! ## The moments -/

/-- `list(range(b+n-1, b-1, -1))`: labels of `n` plate axes. -/
def plateLabels (b n : Nat) : List Nat := (List.range n).reverse.map (b + ·)

/-- `SumMultiply._compute_moments`, first moment, `dot.py` lines 320-323, 339-355.  The operands are
the first moments with the renamed keys of the parent. -/
def smMean {α : Type _} [CommSemiring α] (nKeys : Nat) (outKeys : List Nat)
    (us : List (Arr α × List Nat)) : Except PyErr (Arr α) :=
  let plateCounts := us.map fun u => u.1.shape.length - u.2.length
  npEinsum (us.map fun u => (u.1, plateLabels nKeys (u.1.shape.length - u.2.length) ++ u.2))
    (plateLabels nKeys (plateCounts.foldl max 0) ++ outKeys)

/-- Moments of one parent (`u1` is not used for delta moments) with its renamed keys. -/
structure SMParent (α : Type _) where
  isConst : Bool
  u0 : Arr α
  u1 : Arr α
  keys : List Nat

/-- Number of plates of the array used for the second moment, `plate_counts1`, `dot.py` lines
324-337. -/
def SMParent.plateCount1 {α : Type _} (u : SMParent α) : Nat :=
  if !u.isConst then u.u1.shape.length - 2 * u.keys.length else u.u0.shape.length - u.keys.length

/-- `SumMultiply._compute_moments`, second moment, `dot.py` lines 340-342, 360-403: delta moments use the
first moment twice. -/
def smSecond {α : Type _} [CommSemiring α] (nKeys : Nat) (outKeys : List Nat)
    (us : List (SMParent α)) : Except PyErr (Arr α) :=
  let ops := us.flatMap fun u =>
    if !u.isConst then
      [(u.u1, plateLabels (2 * nKeys) u.plateCount1 ++ u.keys.map (nKeys + ·) ++ u.keys)]
    else
      [(u.u0, plateLabels (2 * nKeys) u.plateCount1 ++ u.keys.map (nKeys + ·)),
       (u.u0, plateLabels (2 * nKeys) u.plateCount1 ++ u.keys)]
  npEinsum ops (plateLabels (2 * nKeys) ((us.map (·.plateCount1)).foldl max 0)
    ++ outKeys.map (nKeys + ·) ++ outKeys)

/-- A scalar (`0`-dimensional array). -/
def scalarArr {α : Type _} (a : α) : Arr α := { shape := [], get := fun _ => a }

/-- `SumMultiply._compute_moments`, third moment of the Gaussian-gamma case, `dot.py` lines 409-412: the
product of the third moments of the parents which do not have delta moments. -/
def smGamma {α : Type _} [Mul α] [One α] (us : List (Bool × Arr α)) : Except PyErr (Arr α) :=
  us.foldlM (fun x u => npMul x (if u.1 then scalarArr 1 else u.2)) (scalarArr 1)

/-- `SumMultiply._compute_moments`, fourth moment of the Gaussian-gamma case, `dot.py` lines 410-413: the
sum of the fourth moments of the parents which do not have delta moments. -/
def smLogGamma {α : Type _} [Add α] [Zero α] (us : List (Bool × Arr α)) : Except PyErr (Arr α) :=
  us.foldlM (fun x u => npAdd x (if u.1 then scalarArr 0 else u.2)) (scalarArr 0)

end Verif
