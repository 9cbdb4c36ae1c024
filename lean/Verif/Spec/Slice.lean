import Verif.Model.Utils
import Verif.Spec.Arr

/-!
# Specification of NumPy basic indexing

`sliceIndices s d` (`Verif/Model/Utils.lean`) is Python's `slice.indices`.  The relations below take the
entries of the index, the plates and the coordinates from the last axis to the first one.
-/

namespace Verif.Spec

/-- An entry of the index expression: an integer, a slice, `None` or `Ellipsis`. -/
inductive RawIx where
  | int (i : Int)
  | slice (s : PySlice)
  | newaxis
  | ellipsis

/-- The slice `:` -/
def colon : RawIx := .slice ⟨none, none, none⟩

/-- Number of axes of the indexed array that the entries use up. -/
def axesUsed : List RawIx → Nat
  | [] => 0
  | .int _ :: r => axesUsed r + 1
  | .slice _ :: r => axesUsed r + 1
  | .newaxis :: r => axesUsed r
  | .ellipsis :: r => axesUsed r

/-- `full` is the index `raw` with one entry for each of `n` axes: `:` are put in place of the only
`Ellipsis`, or at the end. -/
def Expands (raw : List RawIx) (n : Nat) (full : List RawIx) : Prop :=
  axesUsed full = n ∧
    ((RawIx.ellipsis ∉ raw ∧ ∃ m, full = raw ++ List.replicate m colon) ∨
      ∃ a b m, raw = a ++ RawIx.ellipsis :: b ∧ RawIx.ellipsis ∉ a ∧ RawIx.ellipsis ∉ b ∧
        full = a ++ List.replicate m colon ++ b)

/-- The `i`-th item of `range(d)[s]` is `t`. -/
def IsItem (s : PySlice) (d i t : Nat) : Prop :=
  ∃ start stop step, sliceIndices s d = .ok (start, stop, step) ∧
    (t : Int) = start + i * step ∧ if 0 < step then (t : Int) < stop else stop < (t : Int)

/-- The slice has `n` items. -/
def HasItems (s : PySlice) (d n : Nat) : Prop := ∀ i, i < n ↔ ∃ t, IsItem s d i t

/-- The element `c` of `X[full]` is the element `p` of `X`, where `X` has the shape `P`. -/
def Picks : List RawIx → List Nat → (Nat → Nat) → (Nat → Nat) → Prop
  | [], [], _, _ => True
  | .int i :: r, d :: P, c, p => p 0 < d ∧ Names d i (p 0) ∧ Picks r P c fun k => p (k + 1)
  | .slice s :: r, d :: P, c, p =>
    IsItem s d (c 0) (p 0) ∧ Picks r P (fun k => c (k + 1)) fun k => p (k + 1)
  | .newaxis :: r, P, c, p => c 0 = 0 ∧ Picks r P (fun k => c (k + 1)) p
  | _, _, _, _ => False

/-- `X[full]` has the shape `C`. -/
def IndexedShape : List RawIx → List Nat → List Nat → Prop
  | [], [], C => C = []
  | .int _ :: r, _ :: P, C => IndexedShape r P C
  | .slice s :: r, d :: P, n :: C => HasItems s d n ∧ IndexedShape r P C
  | .newaxis :: r, P, n :: C => n = 1 ∧ IndexedShape r P C
  | _, _, _ => False

/-- NumPy accepts the index, and no axis of the result is empty. -/
def Accepts : List RawIx → List Nat → Prop
  | [], [] => True
  | .int i :: r, d :: P => (∃ t, t < d ∧ Names d i t) ∧ Accepts r P
  | .slice s :: r, d :: P => (∃ t, IsItem s d 0 t) ∧ Accepts r P
  | .newaxis :: r, P => Accepts r P
  | _, _ => False

end Verif.Spec
