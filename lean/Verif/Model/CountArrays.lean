import Verif.Model.GammaArrays
import Verif.Model.NodeBound
import Verif.Model.EuclideanGradient
import Verif.Spec.CountArrays

/-!
# Model of the gamma, Poisson, binomial, Dirichlet and multinomial distributions on arrays

`GammaDistribution` of `gamma.py`, `PoissonDistribution` of `poisson.py`, `BinomialDistribution` of `binomial.py` (Bernoulli is the case
`N = 1`), `DirichletDistribution` of `dirichlet.py` (beta is the case of two categories) and `MultinomialDistribution` of
`multinomial.py` (categorical is the case `N = 1`), as they act on whole arrays with plates that broadcast.  Real numbers instead of
floats, except for the multinomial distribution, whose parameters may be `-inf`: there floats without rounding.  The values that a
variable is fixed to are in `Model/Support.lean`.
-/

namespace Verif
open Spec

/-- the number of trials as floats -/
def trialsReal (N : Arr Int) : Arr ℝ := ⟨N.shape, fun c => (N.get c : ℝ)⟩

/-- a function of the elements along the last axis, as `np.sum(X, axis=-1)`; `AxisError` is a `ValueError` -/
def reduceLast {α β : Type _} (r : List α → β) (X : Arr α) : Except PyErr (Arr β) :=
  if X.shape.length = 0 then .error .valueError else .ok ⟨X.shape.dropLast, fun c => r (X.lastAxis c)⟩

/-- the same with `keepdims=True` -/
def reduceKeep {α β : Type _} (r : List α → β) (X : Arr α) : Except PyErr (Arr β) := do
  return addTrailingAxes (← reduceLast r X) 1

/-- `X[..., t]` -/
def takeLast {α : Type _} (X : Arr α) (t : Nat) : Except PyErr (Arr α) :=
  if X.shape.length = 0 ∨ axisLen X.shape 0 ≤ t then .error .indexError else .ok ⟨X.shape.dropLast, fun c => X.get (atLast c t)⟩

/-! ### Gamma, `gamma.py` -/

/-- `compute_message_to_parent`, lines 96-113 -/
noncomputable def gammaMessageArr (index : Nat) (u a b : Arr2) : Except PyErr Arr2 :=
  if index = 0 then do
    let m0 ← npAdd u.2 b.2
    return (m0, pyNum (-1))
  else if index = 1 then .ok (npScaleBy (-1) u.1, a.1)
  else .error .valueError

/-- `compute_phi_from_parents`, lines 116-121 -/
noncomputable def gammaPhiArr (a b : Arr2) : Arr2 := (npScaleBy (-1) b.1, npScaleBy 1 a.1)

open Classical in
/-- `compute_moments_and_cgf`, lines 142-148; the logarithm and the division raise `FloatingPointError`, here `.exception`, if an element
of `-phi[0]` is not positive -/
noncomputable def gammaMomentsArr (phi : Arr2) : Except PyErr (Arr2 × Arr ℝ) := do
  if ∃ i ∈ indices phi.1.shape, ¬(0 < -phi.1.at (coord i)) then .error .exception
  else
    let log_b := npMap Real.log (npScaleBy (-1) phi.1)
    let u0 ← npDiv phi.2 (npScaleBy (-1) phi.1)
    let u1 ← npSub (npMap digamma phi.2) log_b
    let g ← npMul phi.2 log_b
    let g ← npSub g (npMap gammaln phi.2)
    return ((u0, u1), g)

/-- `compute_cgf_from_parents`, lines 151-160 -/
noncomputable def gammaCgfArr (a b : Arr2) : Except PyErr (Arr ℝ) := do npSub (← npMul a.1 b.2) a.2

/-- `compute_gradient`, lines 209-211; `tri` is `special.polygamma(1, ·)` -/
noncomputable def gammaGradientArr (tri : ℝ → ℝ) (g phi : Arr2) : Except PyErr Arr2 := do
  let a ← npDiv (← npMul g.1 phi.2) (npMap (· ^ 2) phi.1)
  let d0 ← npSub a (← npDiv g.2 phi.1)
  let b ← npMul g.2 (npMap tri phi.2)
  let d1 ← npSub b (← npDiv g.1 phi.1)
  return (d0, d1)

/-! ### Poisson, `poisson.py` -/

/-- lines 61-70 -/
noncomputable def poissonMessageArr (index : Nat) (x : Arr ℝ) : Except PyErr Arr2 :=
  if index = 0 then .ok (pyNum (-1), x) else .error .valueError

/-- lines 73-80 -/
def poissonPhiArr (l : Arr2) : Arr ℝ := l.2

/-- lines 83-90 -/
noncomputable def poissonMomentsArr (phi : Arr ℝ) : Arr ℝ × Arr ℝ :=
  let u0 := npMap Real.exp phi
  (u0, npScaleBy (-1) u0)

/-- lines 93-99 -/
noncomputable def poissonCgfArr (l : Arr2) : Arr ℝ := npScaleBy (-1) l.1

/-! ### Binomial, `binomial.py` -/

/-- a list of two numbers as an array -/
def pairArr (a b : ℝ) : Arr ℝ := ⟨[2], fun c => if c 0 = 0 then a else b⟩

/-- lines 77-88 -/
noncomputable def binomialMessageArr (index : Nat) (N : Arr Int) (x : Arr ℝ) : Except PyErr (Arr ℝ) :=
  if index = 0 then do
    let a ← npMul (addTrailingAxes x 1) (pairArr 1 (-1))
    let b ← npMul (addTrailingAxes (trialsReal N) 1) (pairArr 0 1)
    npAdd a b
  else .error .valueError

/-- lines 91-98 -/
noncomputable def binomialPhiArr (q : Arr ℝ) : Except PyErr (Arr ℝ) := do npSub (← takeLast q 0) (← takeLast q 1)

/-- lines 101-107 -/
noncomputable def binomialMomentsArr (N : Arr Int) (phi : Arr ℝ) : Except PyErr (Arr ℝ × Arr ℝ) := do
  let u0 ← npDiv (trialsReal N) (npMap (fun x => 1 + Real.exp (-x)) phi)
  let g ← npMul (npScaleBy (-1) (trialsReal N)) (npMap (fun x => Real.log (1 + Real.exp x)) phi)
  return (u0, g)

/-- lines 110-116 -/
noncomputable def binomialCgfArr (N : Arr Int) (q : Arr ℝ) : Except PyErr (Arr ℝ) := do
  let _ ← takeLast q 0
  npMul (trialsReal N) (← takeLast q 1)

/-! ### Dirichlet, `dirichlet.py` -/

/-- lines 113-120 (the index is not checked) -/
noncomputable def dirichletMessageArr (u : Arr ℝ) : Arr2 := (u, pyNum 1)

/-- lines 123-127 -/
def dirichletPhiArr (a : Arr2) : Arr ℝ := a.1

open Classical in
/-- lines 147-160 -/
noncomputable def dirichletMomentsArr (phi : Arr ℝ) : Except PyErr (Arr ℝ × Arr ℝ) := do
  if ∃ i ∈ indices phi.shape, phi.at (coord i) ≤ 0 then .error .valueError
  else
    let sum_gammaln ← reduceLast List.sum (npMap gammaln phi)
    let gammaln_sum := npMap gammaln (← reduceLast List.sum phi)
    let psi_sum := npMap digamma (← reduceKeep List.sum phi)
    let u0 ← npSub (npMap digamma phi) psi_sum
    let g ← npSub gammaln_sum sum_gammaln
    return (u0, g)

/-- lines 163-167 -/
def dirichletCgfArr (a : Arr2) : Arr ℝ := a.2

/-! ### Multinomial, `multinomial.py` -/

/-- lines 83-90 -/
def multinomialMessageArr {α : Type _} (index : Nat) (u : Arr α) : Except PyErr (Arr α) := if index = 0 then .ok u else .error .valueError

/-- lines 93-98 -/
def multinomialPhiArr {α : Type _} (q : Arr α) : Arr α := q

/-- lines 123-127 -/
noncomputable def multinomialCgfArr {α : Type _} (_q : Arr α) : Arr ℝ := pyNum 0

namespace Flt

/-- `np.maximum`: NaN if either is -/
noncomputable def max : Flt → Flt → Flt
  | nan, _ => nan
  | _, nan => nan
  | posInf, _ => posInf
  | _, posInf => posInf
  | negInf, x => x
  | x, negInf => x
  | fin a, fin b => fin (Max.max a b)

/-- `np.exp` -/
noncomputable def exp : Flt → Flt
  | nan => nan
  | negInf => fin 0
  | posInf => posInf
  | fin a => fin (Real.exp a)

/-- `x / y`, where a zero `y` is `+0.0` -/
noncomputable def div : Flt → Flt → Flt
  | nan, _ => nan
  | _, nan => nan
  | fin a, fin b => if b ≠ 0 then fin (a / b) else if a = 0 then nan else if 0 < a then posInf else negInf
  | fin _, _ => fin 0
  | posInf, fin b => if 0 ≤ b then posInf else negInf
  | negInf, fin b => if 0 ≤ b then negInf else posInf
  | _, _ => nan

/-- the finite numbers; the others become zero -/
def finite : Flt → Flt
  | fin a => fin a
  | _ => fin 0

end Flt

/-- `np.amax(X, axis=-1, keepdims=True)`: `ValueError` if there is nothing to take the maximum of -/
noncomputable def amaxKeep (X : Arr Flt) : Except PyErr (Arr Flt) :=
  if axisLen X.shape 0 = 0 then .error .valueError else reduceKeep (fun l => l.foldr Flt.max .negInf) X

/-- `misc.logsumexp(X, axis=-1, keepdims=True)`, `misc.py` lines 1366-1384 -/
noncomputable def logsumexpKeep (X : Arr Flt) : Except PyErr (Arr Flt) := do
  let maxX ← amaxKeep X
  let maxX := maxX.map Flt.finite
  let X ← npSub X maxX
  let s ← reduceKeep List.sum (X.map Flt.exp)
  npAdd (s.map Flt.log) maxX

/-- `misc.normalized_exp`, lines 1387-1401 -/
noncomputable def normalizedExpArr (phi : Arr Flt) : Except PyErr (Arr Flt × Arr Flt) := do
  let logsum_p ← logsumexpKeep phi
  let logp ← npSub phi logsum_p
  let p := logp.map Flt.exp
  let q ← npMap2 Flt.div p (← reduceKeep List.sum p)
  return (q, logsum_p)

/-- `np.squeeze(X, axis=-1)` -/
def squeezeLast {α : Type _} (X : Arr α) : Except PyErr (Arr α) :=
  if X.shape.length = 0 ∨ axisLen X.shape 0 ≠ 1 then .error .valueError else .ok ⟨X.shape.dropLast, fun c => X.get (atLast c 0)⟩

/-- `compute_moments_and_cgf`, lines 114-120 -/
noncomputable def multinomialMomentsArr (N : Arr Int) (phi : Arr Flt) : Except PyErr (Arr Flt × Arr Flt) := do
  let (p, logsum_p) ← normalizedExpArr phi
  let N := addTrailingAxes (N.map intFlt) 1
  let u0 ← npMul N p
  let g ← squeezeLast (← npMul N logsum_p)
  return (u0, npNeg g)

end Verif
