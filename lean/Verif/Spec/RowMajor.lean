import Mathlib.LinearAlgebra.Matrix.PosDef
import Verif.Spec.Arr
import Verif.Model.Arr

/-!
# Matrices over several axes
-/

namespace Verif.Spec

/-- The position of a multi-index in an array of the given shape, last axis fastest (C order). -/
def rowMajor : List Nat → List Nat → Nat
  | _ :: ds, i :: is => i * ds.prod + rowMajor ds is
  | _, _ => 0

/-- The multi-indices of a shape. -/
abbrev MultiIndex (s : List Nat) : Type := {i // i ∈ (indices s).toFinset}

/-- The element `(i, j)` on plate `p` of an array of matrices over several axes, with broadcasting: the matrix
`X[p, ..., ...]` whose rows are indexed by the axes `s` and columns by the axes `t` -/
def matrixOf {α : Type} (X : Arr α) (p s t : List Nat) : Matrix (MultiIndex s) (MultiIndex t) α :=
  Matrix.of fun i j => X.at (coord (p ++ i ++ j))

/-- The vector over the axes `s` on plate `p`, with broadcasting -/
def vectorOf {α : Type} (X : Arr α) (p s : List Nat) : MultiIndex s → α :=
  fun i => X.at (coord (p ++ i))

end Verif.Spec
