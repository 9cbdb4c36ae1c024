import Verif.Model.Arr

/-!
# NumPy basic indexing with integers and full slices

An index is a list of entries, one per axis from the left: `some i` is the non-negative integer `i`
and `none` is `slice(None)`.  Axes without an entry are taken in full.
-/

namespace Verif
open Spec

/-- Put a first coordinate in front. -/
def consC (i : Nat) (c : Nat → Nat) : Nat → Nat
  | 0 => i
  | k + 1 => c k

/-- The entries for all `n` axes, from the right. -/
def fullIx (n : Nat) (ind : List (Option Nat)) : List (Option Nat) :=
  (ind ++ List.replicate (n - ind.length) none).reverse

/-- Lengths of the axes that remain; all lists from the right. -/
def viewShapeR : List Nat → List (Option Nat) → List Nat
  | d :: s, none :: r => d :: viewShapeR s r
  | _ :: s, some _ :: r => viewShapeR s r
  | s, _ => s

/-- The coordinate in the indexed array of a coordinate of the result. -/
def viewCoord : List (Option Nat) → (Nat → Nat) → Nat → Nat
  | [], c => c
  | some i :: r, c => consC i (viewCoord r c)
  | none :: r, c => consC (c 0) (viewCoord r fun k => c (k + 1))

/-- The coordinate of the result of a coordinate in the indexed array that is selected. -/
def viewProj : List (Option Nat) → (Nat → Nat) → Nat → Nat
  | [], c => c
  | some _ :: r, c => viewProj r fun k => c (k + 1)
  | none :: r, c => consC (c 0) (viewProj r fun k => c (k + 1))

/-- Does the index select this coordinate? -/
def ixSelects : List (Option Nat) → (Nat → Nat) → Bool
  | [], _ => true
  | some i :: r, c => c 0 == i && ixSelects r fun k => c (k + 1)
  | none :: r, c => ixSelects r fun k => c (k + 1)

/-- Not too many entries, and integers within bounds. -/
def ixOk (s : List Nat) (ind : List (Option Nat)) : Bool :=
  ind.length ≤ s.length && (s.zip ind).all fun p => match p.2 with
    | none => true
    | some i => i < p.1

/-- `X[ind]` -/
def npIndex {α : Type _} (X : Arr α) (ind : List (Option Nat)) : Except PyErr (Arr α) :=
  if ixOk X.shape ind then
    .ok { shape := (viewShapeR X.shape.reverse (fullIx X.shape.length ind)).reverse
          get := fun c => X.get (viewCoord (fullIx X.shape.length ind) c) }
  else .error .indexError

/-- `X[ind] = v`, where `v` is broadcast to the selected part. -/
def npSetIndex {α : Type _} (X : Arr α) (ind : List (Option Nat)) (v : Arr α) :
    Except PyErr (Arr α) :=
  let r := fullIx X.shape.length ind
  let s := (viewShapeR X.shape.reverse r).reverse
  if ixOk X.shape ind then
    if (List.range (max s.length v.shape.length)).all fun k =>
        axisLen v.shape k = 1 || axisLen v.shape k = axisLen s k then
      .ok { shape := X.shape
            get := fun c => if ixSelects r c then v.at (viewProj r c) else X.get c }
    else .error .valueError
  else .error .indexError

end Verif
