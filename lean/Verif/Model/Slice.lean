import Verif.Model.Utils
import Verif.Model.Indexing
import Verif.Model.Message
import Verif.Spec.Slice

/-!
# Model of the `Slice` node, `bayespy/inference/vmp/nodes/node.py` lines 863-1172

Lists with the suffix `R` run from the last axis to the first one; the counters `i` and `j` of the loops
over axes are replaced by consuming such lists.
-/

namespace Verif
open Spec

/-- An entry after the preprocessing: a non-negative integer, a slice with three integers, or `None`. -/
inductive Ix where
  | int (i : Nat)
  | slice (start stop step : Int)
  | newaxis
deriving DecidableEq

/-- `slicelen(s)` of a slice with three integers, lines 863-866 (the step is not zero). -/
def sliceLenN (start stop step : Int) : Nat := (max 0 (-(Int.fdiv (-(stop - start)) step))).toNat

/-- Does the entry use a plate axis? -/
def RawIx.uses : RawIx → Bool
  | .int _ => true
  | .slice _ => true
  | _ => false

/-- Loop of lines 905-925: the number of axes, and the second and later `Ellipsis` replaced by `:`. -/
def ellipsisAsSlice : Bool → List RawIx → List RawIx
  | _, [] => []
  | true, .ellipsis :: r => .slice ⟨none, none, none⟩ :: ellipsisAsSlice true r
  | false, .ellipsis :: r => .ellipsis :: ellipsisAsSlice true r
  | b, e :: r => e :: ellipsisAsSlice b r

/-- Replace the `Ellipsis` by `n` times `:`, lines 935-939. -/
def expandEllipsis (n : Nat) : List RawIx → List RawIx
  | [] => []
  | .ellipsis :: r => List.replicate n (.slice ⟨none, none, none⟩) ++ r
  | e :: r => e :: expandEllipsis n r

/-- Is there an `Ellipsis`? -/
def hasEllipsis (raw : List RawIx) : Bool := raw.any fun e => match e with
  | .ellipsis => true
  | _ => false

/-- Lines 889-942: the entries with one entry for every plate axis. -/
def sliceExpand (raw : List RawIx) (nplates : Nat) : Except PyErr (List RawIx) :=
  let slices := ellipsisAsSlice false raw
  let numAxis := slices.countP RawIx.uses
  if numAxis > nplates then .error .indexError
  else
    let expandLen := nplates - numAxis
    if hasEllipsis slices then .ok (expandEllipsis expandLen slices)
    else .ok (slices ++ List.replicate expandLen (.slice ⟨none, none, none⟩))

/-- Lines 951-978: integers made non-negative, slices normalised by `slice.indices`; empty slices raise. -/
def slicePreprocess : List RawIx → List Nat → Except PyErr (List Ix)
  | [], _ => .ok []
  | .newaxis :: r, P => do return .newaxis :: (← slicePreprocess r P)
  | .int s :: r, d :: P => do
    let s := if s < 0 then s + d else s
    if s < 0 ∨ s ≥ d then throw .indexError
    return .int s.toNat :: (← slicePreprocess r P)
  | .slice s :: r, d :: P => do
    let (start, stop, step) ← sliceIndices s d
    if sliceLenN start stop step ≤ 0 then throw .indexError
    return .slice start stop step :: (← slicePreprocess r P)
  | _ :: _, _ => .error .indexError

/-- `Slice.__init__`, lines 886-984: the attribute `slices`. -/
def sliceInit (raw : List RawIx) (plates : List Nat) : Except PyErr (List Ix) := do
  let raw ← sliceExpand raw plates.length
  slicePreprocess raw plates

/-- One pass of the loop of `_plates_from_parent`, lines 996-1017: the list is changed in place at
position `k`. -/
def slicePlatesStep (st : Nat × List Nat) (s : Ix) : Except PyErr (Nat × List Nat) :=
  match s with
  | .slice a b k =>
    let N := sliceLenN a b k
    if N ≤ 0 then .error .indexError
    else if st.1 < st.2.length then .ok (st.1 + 1, st.2.set st.1 N) else .error .indexError
  | .newaxis => .ok (st.1 + 1, st.2.take st.1 ++ [1] ++ st.2.drop st.1)
  | .int _ => if st.1 < st.2.length then .ok (st.1, st.2.eraseIdx st.1) else .error .indexError

/-- `_plates_from_parent`, lines 989-1019. -/
def slicePlates (slices : List Ix) (plates : List Nat) : Except PyErr (List Nat) :=
  (slices.foldlM slicePlatesStep (0, plates)).map Prod.snd

/-! ## NumPy basic indexing with slices -/

/-- An entry of an index tuple given to NumPy; `full` is `slice(None)`. -/
inductive NIx where
  | int (i : Nat)
  | slice (start stop step : Int)
  | full
  | newaxis

/-- Start, length and step NumPy uses for a slice of an axis of length `d`: NumPy normalises the slice
again, so a negative `stop` counts from the end. -/
def npSlice (start stop step : Int) (d : Nat) : Except PyErr (Int × Nat × Int) := do
  let (a, b, k) ← sliceIndices ⟨some start, some stop, some step⟩ d
  return (a, sliceLenN a b k, k)

/-- Axis lengths of `X[...]`; `IndexError` for too many entries and for integers out of bounds. -/
def nviewShape : List NIx → List Nat → Except PyErr (List Nat)
  | [], s => .ok s
  | .newaxis :: r, s => do return 1 :: (← nviewShape r s)
  | .int i :: r, d :: s => if i < d then nviewShape r s else .error .indexError
  | .full :: r, d :: s => do return d :: (← nviewShape r s)
  | .slice a b k :: r, d :: s => do
    let (_, n, _) ← npSlice a b k d
    return n :: (← nviewShape r s)
  | _ :: _, [] => .error .indexError

/-- The coordinate in `X` of a coordinate of `X[...]`. -/
def nviewCoord : List NIx → List Nat → (Nat → Nat) → Nat → Nat
  | [], _, c => c
  | .newaxis :: r, s, c => nviewCoord r s fun k => c (k + 1)
  | .int i :: r, _ :: s, c => consC i (nviewCoord r s c)
  | .full :: r, _ :: s, c => consC (c 0) (nviewCoord r s fun k => c (k + 1))
  | .slice a b k :: r, d :: s, c =>
    let a' := match npSlice a b k d with
      | .ok (a', _, _) => a'
      | .error _ => 0
    consC (a' + c 0 * k).toNat (nviewCoord r s fun k => c (k + 1))
  | _ :: _, [], c => c

/-- The index `i < n` with `a + i * k = p`, if there is one. -/
def progIndex (a : Int) (n : Nat) (k : Int) (p : Nat) : Option Nat :=
  (List.range n).find? fun i => a + (i : Int) * k = p

/-- The coordinate of `X[...]` that selects a coordinate of `X`, if there is one. -/
def nviewInv : List NIx → List Nat → (Nat → Nat) → Option (Nat → Nat)
  | [], _, p => some p
  | .newaxis :: r, s, p => (nviewInv r s p).map (consC 0)
  | .int i :: r, _ :: s, p => if p 0 = i then nviewInv r s fun k => p (k + 1) else none
  | .full :: r, _ :: s, p => (nviewInv r s fun k => p (k + 1)).map (consC (p 0))
  | .slice a b k :: r, d :: s, p =>
    match npSlice a b k d with
    | .ok (a', n, k') =>
      match progIndex a' n k' (p 0) with
      | some i => (nviewInv r s fun k => p (k + 1)).map (consC i)
      | none => none
    | .error _ => none
  | _ :: _, [], _ => none

/-- Number of axes an index tuple uses. -/
def nixAxes (ix : List NIx) : Nat := ix.countP fun e => match e with
  | .newaxis => false
  | _ => true

/-- `X[ix]` (entries from the last one to the first one; the axes without entries are the last ones). -/
def npGetItem {α : Type _} (X : Arr α) (ixR : List NIx) : Except PyErr (Arr α) :=
  let sR := X.shape.reverse
  let n := sR.length - nixAxes ixR
  if nixAxes ixR > sR.length then .error .indexError
  else do
    let vs ← nviewShape ixR (sR.drop n)
    return { shape := (sR.take n ++ vs).reverse
             get := fun c => X.get (joinC n c (nviewCoord ixR (sR.drop n) fun k => c (k + n))) }

/-- `X[ix] = V` with broadcasting; `ValueError` if `V` cannot be broadcast. -/
def npSetItem {α : Type _} (X : Arr α) (ixR : List NIx) (V : Arr α) : Except PyErr (Arr α) :=
  let sR := X.shape.reverse
  let n := sR.length - nixAxes ixR
  if nixAxes ixR > sR.length then .error .indexError
  else do
    let vs ← nviewShape ixR (sR.drop n)
    let s := (sR.take n ++ vs).reverse
    if (List.range (max s.length V.shape.length)).all fun k =>
        axisLen V.shape k = 1 || axisLen V.shape k = axisLen s k then
      return { shape := X.shape
               get := fun p => match nviewInv ixR (sR.drop n) fun k => p (k + n) with
                 | some q => V.at (joinC n p q)
                 | none => X.get p }
    else throw .valueError

/-! ## Messages and moments -/

/-- Loop of `__reverse_indexing`, lines 1042-1070: the child's index, the parent's index and the plates of
the message to the parent. -/
def reverseIx : List Ix → List Nat → List Nat → List NIx × List NIx × List Nat
  | [], _, _ => ([], [], [])
  | .int s :: r, m, d :: P =>
    let (c, p, q) := reverseIx r m P
    (c, .int s :: p, d :: q)
  | .newaxis :: r, m, P =>
    let (c, p, q) := reverseIx r m.tail P
    (if m ≠ [] then .int 0 :: c else c, p, q)
  | .slice a b k :: r, m, d :: P =>
    let (c, p, q) := reverseIx r m.tail P
    (if m ≠ [] then .full :: c else c, .slice a b k :: p,
      (if (m = [] ∨ m.head? = some 1) ∧ sliceLenN a b k = d then 1 else d) :: q)
  | _ :: _, _, [] => ([], [], [])

/-- One array of `_compute_message_to_parent` (or `_compute_weights_to_parent`, with `dims = ()`), lines
1022-1081 and 1084-1115.  The four cases for arrays without axes give the same values as the last one. -/
def sliceMessage {α : Type _} [Zero α] (slices : List Ix) (plates dims : List Nat) (m : Arr α) :
    Except PyErr (Arr α) := do
  let mPlates := m.shape.take (m.shape.length - dims.length)
  let (c, p, q) := reverseIx slices.reverse mPlates.reverse plates.reverse
  let mc ← npGetItem m c
  npSetItem { shape := q.reverse ++ dims, get := fun _ => 0 } p mc

/-- Loop of `_compute_moments`, lines 1138-1167: the index for the moments. -/
def momentIx : List Ix → List Nat → List NIx
  | [], _ => []
  | .newaxis :: r, s => if s ≠ [] then .newaxis :: momentIx r s else momentIx r s
  | .int _ :: r, [] => momentIx r []
  | .slice _ _ _ :: r, [] => momentIx r []
  | .int i :: r, d :: s => (if d ≠ 1 then .int i else .int 0) :: momentIx r s
  | .slice a b k :: r, d :: s => (if d ≠ 1 then .slice a b k else .slice 0 1 1) :: momentIx r s

/-- One array of `_compute_moments`, lines 1117-1172. -/
def sliceMoments {α : Type _} (slices : List Ix) (dims : List Nat) (u : Arr α) : Except PyErr (Arr α) :=
  let shape := u.shape.take (u.shape.length - dims.length)
  npGetItem u (momentIx slices.reverse shape.reverse)

end Verif
