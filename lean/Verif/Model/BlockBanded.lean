import Mathlib.Algebra.Ring.Defs
import Verif.Model.Py

/-!
# Model of `misc.block_banded`
-/

namespace Verif

/-- A two-dimensional array. -/
structure Blk (α : Type _) where
  rows : Nat
  cols : Nat
  get : Nat → Nat → α

/-- `A[r:r+rows, c:c+cols] = X` (the shapes agree, which the code has checked before). -/
def writeBlock {α : Type _} (A : Nat → Nat → α) (r c : Nat) (X : Blk α) : Nat → Nat → α :=
  fun p q => if r ≤ p ∧ p < r + X.rows ∧ c ≤ q ∧ q < c + X.cols then X.get (p - r) (q - c) else A p q

def Blk.T {α : Type _} (X : Blk α) : Blk α := ⟨X.cols, X.rows, fun i j => X.get j i⟩

/-- The writing loop of `block_banded`, `misc.py` lines 1332-1345, starting at offset `k`. -/
def blockBandedFill {α : Type _} : Nat → List (Blk α) → List (Blk α) → (Nat → Nat → α) →
    (Nat → Nat → α)
  | k, d :: ds, b :: bs, A =>
    let d0 := b.rows
    let A := writeBlock A k k d
    let A := writeBlock A k (k + d0) b
    let A := writeBlock A (k + d0) k b.T
    blockBandedFill (k + d0) ds bs A
  | k, d :: _, [], A => writeBlock A k k d
  | _, [], _, A => A

/-- The shape checks of `block_banded`, `misc.py` lines 1309-1330: block count, square diagonal blocks and
matching super-diagonal blocks. -/
def blockBandedCheck {α : Type _} (D B : List (Blk α)) : Except PyErr Unit := do
  if B.length + 1 ≠ D.length then throw .valueError
  D.forM fun d => if d.rows ≠ d.cols then throw .valueError else pure ()
  ((D.zip (D.drop 1)).zip B).forM fun p =>
    if p.2.rows ≠ p.1.1.cols ∨ p.2.cols ≠ p.1.2.rows then throw .valueError else pure ()

/-- `block_banded(D, B)`, `misc.py` lines 1286-1347, for two-dimensional blocks (the promotion of
scalars and vectors by `np.atleast_2d` is left out). -/
def blockBanded {α : Type _} [Zero α] (D B : List (Blk α)) : Except PyErr (Blk α) := do
  blockBandedCheck D B
  let M := (D.map (·.rows)).foldl (· + ·) 0
  return ⟨M, M, blockBandedFill 0 D B fun _ _ => 0⟩

end Verif
