import Mathlib.Algebra.BigOperators.Fin
import Mathlib.Data.Real.Basic

/-! # Specification of chains: sums over all state sequences -/

namespace Verif.Spec

variable {D : Nat}

/-- The weight of the state sequence `z` with `N` transitions. -/
def pathWeight (p0 : Fin D → ℝ) (P : Nat → Fin D → Fin D → ℝ) (N : Nat) (z : Fin (N + 1) → Fin D) :
    ℝ :=
  p0 (z 0) * ∏ n : Fin N, P n (z n.castSucc) (z n.succ)

/-- The normaliser: the weights of all state sequences. -/
def normaliser (p0 : Fin D → ℝ) (P : Nat → Fin D → Fin D → ℝ) (N : Nat) : ℝ :=
  ∑ z : Fin (N + 1) → Fin D, pathWeight p0 P N z

/-- Posterior probability of state `i` at time `t`. -/
noncomputable def marginal (p0 : Fin D → ℝ) (P : Nat → Fin D → Fin D → ℝ) (N : Nat)
    (t : Fin (N + 1)) (i : Fin D) : ℝ :=
  (∑ z : Fin (N + 1) → Fin D, if z t = i then pathWeight p0 P N z else 0) / normaliser p0 P N

/-- Posterior probability of the states `i`, `j` at times `n`, `n + 1`. -/
noncomputable def pairMarginal (p0 : Fin D → ℝ) (P : Nat → Fin D → Fin D → ℝ) (N : Nat) (n : Fin N)
    (i j : Fin D) : ℝ :=
  (∑ z : Fin (N + 1) → Fin D,
    if z n.castSucc = i ∧ z n.succ = j then pathWeight p0 P N z else 0) / normaliser p0 P N

end Verif.Spec
