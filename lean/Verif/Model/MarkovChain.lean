import Mathlib.Algebra.BigOperators.Fin
import Verif.Model.Utils

/-!
# Model of `alpha_beta_recursion`, `bayespy/utils/random.py` lines 357-422, and of
`bayespy/inference/vmp/nodes/categorical_markov_chain.py`

One plate.  There are `D` states and `N ≥ 1` transitions; arrays over time are functions of `Nat`
which are used below `N` only.  Log-potentials may be `-inf` (`⊥`).  A result `none` means that the
code computes NaN or infinity.
-/

namespace Verif

/-- `misc.logsumexp` of a non-empty axis (with no elements it raises, `logsumexp`). -/
noncomputable def lse (l : List (WithBot ℝ)) : WithBot ℝ :=
  match logsumexp l with
  | .ok x => x
  | .error _ => ⊥

/-- `misc.logsumexp(v, axis=(-1,-2))`. -/
noncomputable def lse2 {D : Nat} (v : Fin D → Fin D → WithBot ℝ) : WithBot ℝ :=
  lse ((List.finRange D).flatMap fun i => (List.finRange D).map fun j => v i j)

/-- `misc.logsumexp(v, axis=-2)`. -/
noncomputable def lseRows {D : Nat} (v : Fin D → Fin D → WithBot ℝ) (j : Fin D) : WithBot ℝ :=
  lse ((List.finRange D).map fun i => v i j)

/-- `misc.logsumexp(v, axis=-1)`. -/
noncomputable def lseCols {D : Nat} (v : Fin D → Fin D → WithBot ℝ) (i : Fin D) : WithBot ℝ :=
  lse ((List.finRange D).map fun j => v i j)

/-- A normaliser that is subtracted: `-inf - (-inf)` is NaN. -/
def finite : WithBot ℝ → Option ℝ
  | ⊥ => none
  | (x : ℝ) => some x

variable {D : Nat}

/-- Lines 389-393. -/
noncomputable def forwardStep (logP : Nat → Fin D → Fin D → WithBot ℝ)
    (s : (Nat → Fin D → WithBot ℝ) × ℝ) (n : Nat) :
    Option ((Nat → Fin D → WithBot ℝ) × ℝ) := do
  let v := fun i j => s.1 (n - 1) i + logP (n - 1) i j
  let c ← finite (lse2 v)
  return (Function.update s.1 n (lseRows fun i j => addBot (-c) (v i j)), s.2 - c)

/-- Lines 382, 384, 387-393. -/
noncomputable def forwardLoop (logp0 : Fin D → WithBot ℝ) (logP : Nat → Fin D → Fin D → WithBot ℝ)
    (N : Nat) : Option ((Nat → Fin D → WithBot ℝ) × ℝ) :=
  (List.range' 1 (N - 1)).foldlM (forwardStep logP)
    (Function.update (fun _ _ => ((0 : ℝ) : WithBot ℝ)) 0 logp0, 0)

/-- Lines 402-404. -/
noncomputable def backwardStep (logP : Nat → Fin D → Fin D → WithBot ℝ)
    (logbeta : Nat → Fin D → WithBot ℝ) (n : Nat) : Option (Nat → Fin D → WithBot ℝ) := do
  let v := fun i j => logbeta (n + 1) j + logP (n + 1) i j
  let c ← finite (lse2 v)
  return Function.update logbeta n (lseCols fun i j => addBot (-c) (v i j))

/-- Lines 383, 400-404. -/
noncomputable def backwardLoop (logP : Nat → Fin D → Fin D → WithBot ℝ) (N : Nat) :
    Option (Nat → Fin D → WithBot ℝ) :=
  (List.range (N - 1)).reverse.foldlM (backwardStep logP) fun _ _ => ((0 : ℝ) : WithBot ℝ)

/-- `alpha_beta_recursion(logp0, logP)`, lines 357-422: `(z0, zz, g)`. -/
noncomputable def alphaBetaRecursion (logp0 : Fin D → WithBot ℝ)
    (logP : Nat → Fin D → Fin D → WithBot ℝ) (N : Nat) :
    Option ((Fin D → ℝ) × (Nat → Fin D → Fin D → ℝ) × ℝ) := do
  let (logalpha, g) ← forwardLoop logp0 logP N
  let v := fun i j => logalpha (N - 1) i + logP (N - 1) i j
  let g := g - (← finite (lse2 v))
  let logbeta ← backwardLoop logP N
  let v := fun n i j => logalpha n i + logbeta n j + logP n i j
  let c ← (List.range N).mapM fun n => finite (lse2 (v n))
  let zz := fun n i j => expBot (addBot (-(c.getD n 0)) (v n i j))
  let zz := fun n i j => zz n i j / ∑ k, ∑ l, zz n k l
  let z0 := fun i => ∑ j, zz 0 i j
  let z0 := fun i => z0 i / ∑ k, z0 k
  return (z0, zz, g)

/-- `CategoricalMarkovChainDistribution.compute_phi_from_parents`, lines 113-119. -/
def cmcPhi (u_p0 : Fin D → WithBot ℝ) (u_P : Nat → Fin D → Fin D → WithBot ℝ) :
    (Fin D → WithBot ℝ) × (Nat → Fin D → Fin D → WithBot ℝ) := (u_p0, u_P)

/-- `CategoricalMarkovChainToCategorical._compute_moments`, lines 365-385: time `0` is `u[0]`, time
`n + 1` is `u[1][n]` summed over the earlier state. -/
def cmcToCategorical (z0 : Fin D → ℝ) (zz : Nat → Fin D → Fin D → ℝ) : Nat → Fin D → ℝ
  | 0 => z0
  | n + 1 => fun j => ∑ i, zz n i j

end Verif
