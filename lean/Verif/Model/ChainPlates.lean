import Verif.Model.MarkovChain
import Verif.Model.BandPlates
import Verif.Model.Take

/-!
# Model of `alpha_beta_recursion` on arrays with plates

`bayespy/utils/random.py` lines 357-422.  `logp0` and `logP` are whole arrays of log-potentials which may be `-inf` (`⊥`).  The arrays
`logalpha`, `logbeta` and `zz` are kept by time instance: `logalpha n` stands for `logalpha[..., n, :]`, an array of vectors over the
plates.  Real numbers instead of floats; `none` is NaN (for `g`: NaN or infinity).  A sum is `-inf` only if all of its terms are, so
subtracting a sum that is `-inf` gives NaN.
-/

namespace Verif
open Spec

variable {D : Nat}

/-- A number, `-inf` or NaN -/
abbrev NanLog := Option (WithBot ℝ)

/-- `x + y` -/
noncomputable def nanAdd : NanLog → NanLog → NanLog
  | some x, some y => some (x + y)
  | _, _ => none

/-- `x - c` -/
noncomputable def nanSub : NanLog → NanLog → NanLog
  | some x, some (c : ℝ) => some (addBot (-c) x)
  | _, _ => none

/-- `misc.logsumexp` of the elements of a list, `misc.py` lines 1366-1385: NaN if one of them is -/
noncomputable def nanLse (l : List NanLog) : NanLog := (l.mapM id).map lse

/-- `misc.logsumexp(v, axis=(-1,-2))` -/
noncomputable def nanLse2 (v : Fin D → Fin D → NanLog) : NanLog :=
  nanLse ((List.finRange D).flatMap fun i => (List.finRange D).map fun j => v i j)

/-- `misc.logsumexp(v, axis=-2)` -/
noncomputable def nanLseRows (v : Fin D → Fin D → NanLog) (j : Fin D) : NanLog := nanLse ((List.finRange D).map fun i => v i j)

/-- `misc.logsumexp(v, axis=-1)` -/
noncomputable def nanLseCols (v : Fin D → Fin D → NanLog) (i : Fin D) : NanLog := nanLse ((List.finRange D).map fun j => v i j)

/-- `np.sum` of a list with NaNs -/
noncomputable def nanTotal (l : List (Option ℝ)) : Option ℝ := (l.mapM id).map List.sum

/-- `x / y` -/
noncomputable def nanDiv : Option ℝ → Option ℝ → Option ℝ
  | some x, some y => if y = 0 then none else some (x / y)
  | _, _ => none

/-- `logp0` as an array of vectors -/
def chainFirst (D : Nat) (X : Arr (WithBot ℝ)) : Arr (Fin D → NanLog) :=
  { shape := X.shape.take (X.shape.length - 1)
    get := fun c i => some (X.get (atLast c i)) }

/-- `logP[..., n, :, :]` -/
def chainStepBlock (D : Nat) (X : Arr (WithBot ℝ)) (n : Nat) : Arr (Fin D → Fin D → NanLog) :=
  { shape := X.shape.take (X.shape.length - 3)
    get := fun c i j => some (X.get (atLast (atLast (atLast c n) i) j)) }

/-- Lines 394-398 for the time instance `n + 1` -/
noncomputable def chainForward (plates : List Nat) (P : Nat → Arr (Fin D → Fin D → NanLog))
    (s : (Nat → Arr (Fin D → NanLog)) × Arr NanLog) (n : Nat) : Except PyErr ((Nat → Arr (Fin D → NanLog)) × Arr NanLog) := do
  let v ← npMap2 (fun a p i j => nanAdd (a i) (p i j)) (s.1 n) (P n)
  let c := v.map nanLse2
  let w ← npMap2 (fun v c i j => nanSub (v i j) c) v c
  let a ← fillPlates plates (w.map nanLseRows)
  let g ← npMap2 nanSub s.2 c
  let g ← fillPlates s.2.shape g
  return (Function.update s.1 (n + 1) a, g)

/-- Lines 407-409 -/
noncomputable def chainBackward (plates : List Nat) (P : Nat → Arr (Fin D → Fin D → NanLog))
    (b : Nat → Arr (Fin D → NanLog)) (n : Nat) : Except PyErr (Nat → Arr (Fin D → NanLog)) := do
  let v ← npMap2 (fun b p i j => nanAdd (b j) (p i j)) (b (n + 1)) (P (n + 1))
  let c := v.map nanLse2
  let w ← npMap2 (fun v c i j => nanSub (v i j) c) v c
  let b' ← fillPlates plates (w.map nanLseCols)
  return Function.update b n b'

/-- Lines 411-417 for one time instance -/
noncomputable def chainPair (a b : Arr (Fin D → NanLog)) (P : Arr (Fin D → Fin D → NanLog)) :
    Except PyErr (Arr (Fin D → Fin D → Option ℝ)) := do
  let v ← npMap2 (fun a b i j => nanAdd (a i) (b j)) a b
  let v ← npMap2 (fun v p i j => nanAdd (v i j) (p i j)) v P
  let c := v.map nanLse2
  let zz ← npMap2 (fun v c i j => (nanSub (v i j) c).map expBot) v c
  return zz.map fun z i j => nanDiv (z i j) (nanTotal ((List.finRange D).flatMap fun k => (List.finRange D).map fun l => z k l))

/-- `z0`, `zz` by time instance, and `g` -/
structure ChainPosterior (D : Nat) where
  z0 : Arr (Fin D → Option ℝ)
  zz : List (Arr (Fin D → Fin D → Option ℝ))
  g : Arr NanLog

/-- Lines 385-420 -/
noncomputable def chainPlates (N : Nat) (plates : List Nat) (p0 : Arr (Fin D → NanLog)) (P : Nat → Arr (Fin D → Fin D → NanLog)) :
    Except PyErr (ChainPosterior D) := do
  let zeros : Nat → Arr (Fin D → NanLog) := fun _ => ⟨plates, fun _ _ => some (0 : ℝ)⟩
  let a0 ← fillPlates plates p0
  let (logalpha, g) ← (List.range (N - 1)).foldlM (chainForward plates P) (Function.update zeros 0 a0, ⟨plates, fun _ => some (0 : ℝ)⟩)
  let v ← npMap2 (fun a p i j => nanAdd (a i) (p i j)) (logalpha (N - 1)) (P (N - 1))
  let g' ← npMap2 nanSub g (v.map nanLse2)
  let g' ← fillPlates g.shape g'
  let logbeta ← (List.range (N - 1)).reverse.foldlM (chainBackward plates P) zeros
  let zz ← (List.range N).mapM fun n => chainPair (logalpha n) (logbeta n) (P n)
  let z0 := (zz.headD ⟨plates, fun _ _ _ => none⟩).map fun z i => nanTotal ((List.finRange D).map fun j => z i j)
  let z0 := z0.map fun z i => nanDiv (z i) (nanTotal ((List.finRange D).map z))
  return ⟨z0, zz, g'⟩

/-- `alpha_beta_recursion(logp0, logP)`.  Without time instances the assignment to `logalpha[...,0,:]` raises `IndexError`; without states
`np.amax` raises `ValueError`, unless there are no plates to compute. -/
noncomputable def alphaBetaArr (logp0 logP : Arr (WithBot ℝ)) : Except PyErr (Σ D, ChainPosterior D) := do
  let logp0 := atleastNd logp0 1
  let logP := atleastNd logP 3
  let D := axisLen logp0.shape 0
  let N := axisLen logP.shape 2
  let p0 := chainFirst D logp0
  let P := chainStepBlock D logP
  let plates ← broadcastedShape [p0.shape, (P 0).shape]
  if axisLen logP.shape 1 ≠ D ∨ axisLen logP.shape 0 ≠ D then throw .valueError
  if N = 0 then throw .indexError
  if D = 0 ∧ plates.prod ≠ 0 then throw .valueError
  let r ← chainPlates N plates p0 P
  return ⟨D, r⟩

end Verif
