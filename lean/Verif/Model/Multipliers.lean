import Verif.Model.Weights

/-!
# Model of the plate multipliers of constructed nodes

Files are in `bayespy/inference/vmp/nodes`.
-/

namespace Verif

/-- `Node._compute_plates_multiplier_from_parent`, `node.py` lines 389-391; no distribution overrides it, nor do `Gate`
and the nodes which take the states of chains apart -/
def multFromParent (mult : List Nat) : List Nat := mult

/-- The plate multiplier of a node, lines 295-301 of `Node.__init__`, `node.py`, from those of the parents -/
def nodeMultiplier (given : Option (List Nat)) (mults : List (List Nat)) : Except PyErr (List Nat) :=
  totalPlates given (mults.map multFromParent)

/-- The same for `GaussianToGaussian`, `gaussian.py` lines 142-144; `n` axes become plates -/
def toGaussianMultiplier (n : Nat) (given : Option (List Nat)) (mult : List Nat) : Except PyErr (List Nat) :=
  totalPlates given [mult ++ List.replicate n 1]

/-- The same for `Take`, `take.py` lines 133-140 -/
def takeMultiplier (given : Option (List Nat)) (mult : List Nat) : Except PyErr (List Nat) := do
  raiseIf (∃ p ∈ mult, p ≠ 1) .notImplemented
  totalPlates given [mult]

/-- The same for `Concatenate`, `concatenate.py` lines 101-107 -/
def concatMultiplier (given : Option (List Nat)) (mults : List (List Nat)) : Except PyErr (List Nat) := do
  raiseIf (∃ m ∈ mults, ∃ p ∈ m, p ≠ 1) .valueError
  totalPlates given (mults.map fun _ => [])

end Verif
