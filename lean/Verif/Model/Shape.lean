import Verif.Model.Py

/-!
# Model of the shape functions in `bayespy/utils/misc.py`

Shapes are lists of naturals in NumPy order (first axis first).
-/

namespace Verif

/-- Body of the inner loop of `broadcasted_shape`, `misc.py` lines 1008-1013.
`k` stands for `-i` (axis counted from the right, starting at 1); `s` is the running length. -/
def bcastAxisStep (k s : Nat) (a : List Nat) : Except PyErr Nat := do
  if k ≤ a.length then
    let x ← negIdx a k
    if s = 1 then
      return x
    else if x ≠ 1 ∧ x ≠ s then
      throw .valueError
    else
      return s
  else
    return s

/-- The inner loop over all shapes for axis `-k`, `misc.py` lines 1007-1013. -/
def bcastAxis (shapes : List (List Nat)) (k : Nat) : Except PyErr Nat :=
  shapes.foldlM (bcastAxisStep k) 1

/-- `dim = max(dim, len(a))` loop, `misc.py` lines 1002-1004. -/
def maxNdim (shapes : List (List Nat)) : Nat :=
  shapes.foldl (fun dim a => max dim a.length) 0

/-- `broadcasted_shape(*shapes)`, `misc.py` lines 995-1015.  The loop `for i in range(-dim,0)`
visits `-i = dim, dim-1, ..., 1`; here `j` runs over `0 .. dim-1` and `-i = dim - j`. -/
def broadcastedShape (shapes : List (List Nat)) : Except PyErr (List Nat) :=
  let dim := maxNdim shapes
  (List.range dim).mapM fun j => bcastAxis shapes (dim - j)

/-- Loop of `is_shape_subset`, `misc.py` lines 1033-1036, over a list of `-ind` values (`1 + i`). -/
def isShapeSubsetLoop (sub full : List Nat) : List Nat → Except PyErr Bool
  | [] => .ok true
  | k :: ks => do
    let x ← negIdx sub k
    let y ← negIdx full k
    if x ≠ 1 ∧ x ≠ y then return false else isShapeSubsetLoop sub full ks

/-- `is_shape_subset(sub_shape, full_shape)`, `misc.py` lines 1028-1037. -/
def isShapeSubset (sub full : List Nat) : Except PyErr Bool :=
  if sub.length > full.length then .ok false
  else isShapeSubsetLoop sub full ((List.range sub.length).map (· + 1))

/-- The `for` loop of `Node._total_plates` checking the parents' plates, `node.py` lines 350-356. -/
def checkParentPlates (plates : List Nat) : List (List Nat) → Except PyErr Unit
  | [] => .ok ()
  | p :: ps => do
    let b ← isShapeSubset p plates
    if !b then throw .valueError else checkParentPlates plates ps

/-- `Node._total_plates(plates, *parent_plates)`, `bayespy/inference/vmp/nodes/node.py` lines
335-357.  `none` stands for `plates=None`.  The re-raised `ValueError` keeps its class. -/
def totalPlates (plates : Option (List Nat)) (parentPlates : List (List Nat)) :
    Except PyErr (List Nat) :=
  match plates with
  | none => broadcastedShape parentPlates
  | some p => do
    checkParentPlates p parentPlates
    return p

end Verif
