import Verif.Model.Indexing
import Verif.Model.BlockBandedSolve

/-!
# Model of the plate loops in `bayespy/utils/linalg.py`

`chol_solve` (lines 66-160, `ndim=1`) and `solve_triangular` (lines 244-294) run the same loop over the
plates of `U`, with different solvers.  The solver `solve M b` of one system is a parameter.  `U` is an
array of matrices whose shape are the plates; `B` is an array of numbers whose last axis is the vector
axis.  Moving the vectors into a matrix and back (`reshape`, `.T`) is left out: the solver handles each
column by itself.
-/

namespace Verif
open Spec

/-- `misc.nested_iterator(max_inds)`, `misc.py` lines 1056-1058: `itertools.product` of ranges. -/
def nestedIterator : List Nat → List (List Nat)
  | [] => [[]]
  | d :: ds => (List.range d).flatMap fun i => (nestedIterator ds).map (i :: ·)

/-- `ind_b`, lines 99-101 and 120-121, from the left: integers on the axes where the lengths of `U` and
`B` agree, full slices on the others. -/
def indB (sh_u sh_b i : List Nat) : List (Option Nat) :=
  ((List.range sh_b.length).map fun k =>
    if k < sh_u.length ∧ axisLen sh_b k = axisLen sh_u k then i.reverse[k]? else none).reverse

/-- One round of the loop, lines 110-146. -/
def cholSolveStep {M α : Type} (solve : M → (Nat → α) → Nat → α) (U : Arr M) (B : Arr α) (sh : List Nat)
    (out : Arr α) (i : List Nat) : Except PyErr (Arr α) := do
  let ind_b := indB U.shape B.shape.dropLast i
  let b ← npIndex B (ind_b ++ [none])
  let ind_out := if ind_b.length < sh.length then [none] ++ ind_b ++ [none] else ind_b ++ [none]
  let Ui := U.get fun k => i.reverse[k]?.getD 0
  let x := fun (c : Nat → Nat) => solve Ui (fun d => b.get (Function.update c 0 d)) (c 0)
  npSetIndex out ind_out ⟨b.shape, x⟩

/-- `chol_solve(U, b)` and `solve_triangular(U, b)`; `b` has at least one axis. -/
def cholSolvePlates {M α : Type} [Zero α] (solve : M → (Nat → α) → Nat → α) (U : Arr M) (B : Arr α) :
    Except PyErr (Arr α) := do
  let sh ← broadcastedShape [U.shape, B.shape.dropLast]
  let out : Arr α := { shape := sh ++ B.shape.drop (B.shape.length - 1), get := fun _ => 0 }
  (nestedIterator U.shape).foldlM (cholSolveStep solve U B sh) out

/-- One call of `scipy.linalg.cho_solve` for `D`-by-`D` matrices, on vectors given by numbers. -/
noncomputable def choSolveNat {D : Nat} (U : Matrix (Fin D) (Fin D) ℝ) (b : Nat → ℝ) (d : Nat) : ℝ :=
  if h : d < D then cholSolve U (fun j => b j) ⟨d, h⟩ else 0

/-- `chol_inv(U)`, lines 174-203: `V` starts as identities; `solve` solves for the columns of a matrix. -/
def cholInvPlates {M : Type} (solve : M → M → M) (U : Arr M) (one : M) : Arr M :=
  (nestedIterator U.shape).foldl (fun V i =>
    { V with get := fun c =>
        if ixSelects (i.map some).reverse c then solve (U.get c) (V.get c) else V.get c })
    { shape := U.shape, get := fun _ => one }

end Verif
