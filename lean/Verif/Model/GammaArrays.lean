import Verif.Model.GaussianArrays
import Verif.Model.GaussianDist
import Verif.Spec.GammaArrays

/-!
# Model of the Gaussian-gamma and Wishart distributions and of the wrappers on arrays

`GaussianGammaDistribution` and the wrappers of `gaussian.py`, `WishartDistribution`, `WishartMoments` and `_ScaledWishart` of
`wishart.py`, as they act on whole arrays with plates that broadcast.  Real numbers instead of floats; a number is an array without
axes; `special.gammaln`, `special.psi` and the sum of `misc.multidigamma` act on every element; `special.multigammaln(a, d)` raises
if an element is not above `(d - 1) / 2`.
-/

namespace Verif
open Spec

/-- a function of every element -/
def npMap (f : ℝ → ℝ) (X : Arr ℝ) : Arr ℝ := ⟨X.shape, fun c => f (X.get c)⟩

/-- a Python number -/
def pyNum (a : ℝ) : Arr ℝ := npFull a []

/-! ### GaussianDistribution -/

/-- `compute_message_to_parent`, `gaussian.py` lines 366-374 -/
noncomputable def gaussianMessageArr (index : Nat) (u : Arr2) : Except PyErr Arr4 :=
  if index = 0 then .ok (u.1, pyNum (-0.5), npScaleBy (-0.5) u.2, pyNum 0.5) else .error .valueError

/-- `compute_cgf_from_parents`, lines 449-463 -/
noncomputable def gaussianCgfArr (v : Arr4) : Except PyErr (Arr ℝ) := npAdd (npScaleBy (-0.5) v.2.1) (npScaleBy 0.5 v.2.2.2)

/-! ### GaussianGammaDistribution -/

/-- `compute_message_to_parent(parent, 0, ...)`, lines 1022-1027 -/
noncomputable def ggMessage0 (u : Arr4) : Arr4 := (u.1, npScaleBy (-0.5) u.2.2.1, npScaleBy (-0.5) u.2.1, pyNum 0.5)

/-- `compute_message_to_parent(parent, 1, ...)`, lines 1028-1032 -/
noncomputable def ggMessage1 (u : Arr4) (b : Arr2) : Except PyErr Arr2 := do
  let m0 ← npAdd u.2.2.2 b.2
  return (m0, pyNum (-1))

/-- `compute_message_to_parent(parent, 2, ...)`, lines 1033-1037 -/
noncomputable def ggMessage2 (u : Arr4) (a : Arr2) : Arr2 := (npScaleBy (-1) u.2.2.1, a.1)

/-- `compute_phi_from_parents`, lines 1042-1055 -/
noncomputable def ggPhiArr (v : Arr4) (a b : Arr2) : Except PyErr Arr4 := do
  let phi2 ← npSub (npScaleBy (-0.5) v.2.1) b.1
  return (v.1, npScaleBy (-0.5) v.2.2.1, phi2, a.1)

/-- `compute_moments_and_cgf`, lines 1058-1085 -/
noncomputable def ggMomentsArr (s : List Nat) (phi : Arr4) : Except PyErr (Arr4 × Arr ℝ) := do
  let V := npScaleBy (-2) phi.2.1
  let L ← cholAxes V s.length
  let logdet ← cholLogdetAxes L s.length
  let mu ← cholSolveAxes L phi.1 s.length
  let Cov ← cholInvAxes L s.length
  let a := phi.2.2.2
  let ip ← linInner [mu, phi.1] s.length
  let b ← npSub (npScaleBy (-1) phi.2.2.1) (npScaleBy 0.5 ip)
  let log_b := npMap Real.log b
  let u2 ← npMap2 (fun x y => x / y) a b
  let u3 ← npAdd (npScaleBy (-1) log_b) (npMap digamma a)
  let u0 ← npMul mu (addTrailingAxes u2 s.length)
  let mm ← linOuter mu mu s.length
  let mm ← npMul mm (addTrailingAxes u2 (2 * s.length))
  let u1 ← npAdd Cov mm
  let ab ← npMul a log_b
  let g ← npAdd (npScaleBy 0.5 logdet) ab
  let g ← npSub g (npMap gammaln a)
  return ((u0, u1, u2, u3), g)

/-- `compute_cgf_from_parents`, lines 1088-1097 -/
noncomputable def ggCgfArr (v : Arr4) (a b : Arr2) : Except PyErr (Arr ℝ) := do
  let ab ← npMul a.1 b.2
  let g ← npAdd (npScaleBy 0.5 v.2.2.2) ab
  npSub g a.2

/-- the number of elements of a variable, lines 1111-1114 -/
def ggSize (n : Nat) (shape : List Nat) : Nat := if n > 0 then (trailingShape shape n).prod else 1

/-- `compute_fixed_moments_and_f`, lines 1100-1116 -/
noncomputable def ggFixedArr (s : List Nat) (x alpha : Arr ℝ) : Except PyErr (Arr4 × Arr ℝ) := do
  let logalpha := npMap Real.log alpha
  let u0 ← npMul x (addTrailingAxes alpha s.length)
  let xx ← linOuter x x s.length
  let u1 ← npMul xx (addTrailingAxes alpha (2 * s.length))
  let D := ggSize s.length x.shape
  let f := npMap (fun la => ((D : ℝ) / 2 - 1) * la - D / 2 * Real.log (2 * Real.pi)) logalpha
  return ((u0, u1, alpha, logalpha), f)

/-! ### WishartDistribution and WishartMoments, `wishart.py` -/

/-- `special.multigammaln(a, d)` -/
noncomputable def multigammalnArr (a : Arr ℝ) (d : Nat) : Except PyErr (Arr ℝ) :=
  if ∀ i ∈ indices a.shape, 0.5 * ((d : ℝ) - 1) < a.get (coord i) then .ok (npMap (fun x => multigammaln x d) a)
  else .error .valueError

/-- `compute_message_to_parent`, lines 136-147 -/
noncomputable def wishartMessageArr (index : Nat) (u n : Arr2) : Except PyErr Arr2 :=
  if index = 0 then .error .notImplemented
  else if index = 1 then .ok (npScaleBy (-0.5) u.1, npScaleBy 0.5 n.1)
  else .error .valueError

/-- `compute_phi_from_parents`, lines 149-163 -/
noncomputable def wishartPhiArr (n V : Arr2) : Arr2 := (npScaleBy (-0.5) V.1, npScaleBy 0.5 n.1)

/-- `compute_moments_and_cgf`, lines 165-188 -/
noncomputable def wishartMomentsArr (phi : Arr2) : Except PyErr (Arr2 × Arr ℝ) := do
  let U ← cholAxes (npScaleBy (-1) phi.1) 1
  let k := axisLen phi.1.shape 0
  let logdet ← cholLogdetAxes U 1
  let inv ← cholInvAxes U 1
  let u0 ← npMul (addTrailingAxes phi.2 2) inv
  let u1 ← npAdd (npScaleBy (-1) logdet) (npMap (fun x => multidigamma x k) phi.2)
  let pl ← npMul phi.2 logdet
  let mg ← multigammalnArr phi.2 k
  let g ← npSub pl mg
  return ((u0, u1), g)

/-- `compute_cgf_from_parents`, lines 190-205 -/
noncomputable def wishartCgfArr (n V : Arr2) : Except PyErr (Arr ℝ) := do
  let k := axisLen V.1.shape 0
  let nl ← npMul (npScaleBy 0.5 n.1) V.2
  let g ← npSub nl (npMap (fun x => x * Real.log 2) (npScaleBy (0.5 * (k : ℝ)) n.1))
  npSub g n.2

/-- `compute_fixed_moments_and_f`, lines 207-225 -/
noncomputable def wishartFixedArr (L : Arr ℝ) : Except PyErr (Arr2 × Arr ℝ) := do
  let k := axisLen L.shape 0
  let U ← cholAxes L 1
  let ldet ← cholLogdetAxes U 1
  return ((L, ldet), npScaleBy (-((k : ℝ) + 1) / 2) ldet)

/-- `WishartMoments.compute_fixed_moments(Lambda, gradient)`, lines 55-74 -/
noncomputable def wishartGradArr (s : List Nat) (L : Arr ℝ) (grad : Arr2) : Except PyErr (Arr2 × Arr ℝ) := do
  let U ← cholAxes L s.length
  let ldet ← cholLogdetAxes U s.length
  let inv ← cholInvAxes U s.length
  let du1 ← npMul (addTrailingAxes grad.2 (2 * s.length)) inv
  let du ← npAdd grad.1 du1
  return ((L, ldet), du)

/-- `_ScaledWishart._compute_moments`, lines 328-340 -/
noncomputable def scaledMomentsArr (s : List Nat) (L a : Arr2) : Except PyErr Arr2 := do
  let alpha := addTrailingAxes a.1 (2 * s.length)
  let u0 ← npMul L.1 alpha
  let u1 ← npAdd L.2 (npScaleBy (s.prod : ℝ) a.2)
  return (u0, u1)

/-- `_ScaledWishart._compute_message_to_parent(0, ...)`, lines 344-350 -/
noncomputable def scaledMessage0 (s : List Nat) (m a : Arr2) : Except PyErr Arr2 := do
  let alpha := addTrailingAxes a.1 (2 * s.length)
  let m0 ← npMul m.1 alpha
  return (m0, m.2)

/-- `_ScaledWishart._compute_message_to_parent(1, ...)`, lines 352-357 -/
noncomputable def scaledMessage1 (s : List Nat) (m L : Arr2) : Except PyErr Arr2 := do
  let m0 ← linInner [m.1, L.1] (2 * s.length)
  return (m0, npScaleBy (s.prod : ℝ) m.2)

/-! ### The converter and the wrappers, `gaussian.py` -/

/-- `GaussianToGaussianGamma._compute_moments`, lines 2252-2258 -/
def toGGMoments (u : Arr2) : Arr4 := (u.1, u.2, pyNum 1, pyNum 0)

/-- `GaussianToGaussianGamma._compute_message_to_parent`, lines 2261-2268 -/
def toGGMessage (index : Nat) (m : Arr4) : Except PyErr Arr2 := if index = 0 then .ok (m.1, m.2.1) else .error .valueError

/-- `WrapToGaussianGamma._compute_moments`, lines 2339-2348 -/
noncomputable def wrapGGMoments (s : List Nat) (X : Arr4) (a : Arr2) : Except PyErr Arr4 := do
  let u0 ← npMul X.1 (addTrailingAxes a.1 s.length)
  let u1 ← npMul X.2.1 (addTrailingAxes a.1 (2 * s.length))
  let u2 ← npMul X.2.2.1 a.1
  let u3 ← npAdd X.2.2.2 a.2
  return (u0, u1, u2, u3)

/-- `WrapToGaussianGamma._compute_message_to_parent(0, ...)`, lines 2354-2360 -/
noncomputable def wrapGGMessage0 (s : List Nat) (m : Arr4) (a : Arr2) : Except PyErr Arr4 := do
  let m0 ← npMul m.1 (addTrailingAxes a.1 s.length)
  let m1 ← npMul m.2.1 (addTrailingAxes a.1 (2 * s.length))
  let m2 ← npMul m.2.2.1 a.1
  return (m0, m1, m2, m.2.2.2)

/-- `WrapToGaussianGamma._compute_message_to_parent(1, ...)`, lines 2361-2369 -/
noncomputable def wrapGGMessage1 (s : List Nat) (m X : Arr4) : Except PyErr Arr2 := do
  let i0 ← linInner [m.1, X.1] s.length
  let i1 ← linInner [m.2.1, X.2.1] (2 * s.length)
  let i2 ← npMul m.2.2.1 X.2.2.1
  let t ← npAdd i0 i1
  let m0 ← npAdd t i2
  return (m0, m.2.2.2)

/-- `WrapToGaussianWishart._compute_moments`, lines 2438-2461, with the flag `self.wishart` -/
noncomputable def wrapGWMoments (wishart : Bool) (s : List Nat) (X : Arr4) (L : Arr2) : Except PyErr Arr4 := do
  if !wishart then throw .notImplemented
  let D := s.prod
  let u0 ← linMvdot L.1 X.1 s.length
  let u1 ← linInner [L.1, X.2.1] (2 * s.length)
  let u2 ← npMul L.1 (addTrailingAxes X.2.2.1 (2 * s.length))
  let u3 ← npAdd L.2 (npScaleBy (D : ℝ) X.2.2.2)
  return (u0, u1, u2, u3)

/-- `WrapToGaussianWishart._compute_message_to_parent(0, ...)`, lines 2496-2509 -/
noncomputable def wrapGWMessage0 (wishart : Bool) (s : List Nat) (m : Arr4) (L : Arr2) : Except PyErr Arr4 := do
  if !wishart then throw .notImplemented
  let D := s.prod
  let m0 ← linMvdot L.1 m.1 s.length
  let m1 ← npMul L.1 (addTrailingAxes m.2.1 (2 * s.length))
  let m2 ← linInner [L.1, m.2.2.1] (2 * s.length)
  return (m0, m1, m2, npScaleBy (D : ℝ) m.2.2.2)

/-- `WrapToGaussianWishart._compute_message_to_parent(1, ...)`, lines 2510-2524 -/
noncomputable def wrapGWMessage1 (wishart : Bool) (s : List Nat) (m X : Arr4) : Except PyErr Arr2 := do
  if !wishart then throw .notImplemented
  let o1 ← linOuter X.1 m.1 s.length
  let o2 ← linOuter m.1 X.1 s.length
  let t ← npAdd (npScaleBy 0.5 o1) (npScaleBy 0.5 o2)
  let t3 ← npMul X.2.1 (addTrailingAxes m.2.1 (2 * s.length))
  let t4 ← npMul (addTrailingAxes X.2.2.1 (2 * s.length)) m.2.2.1
  let t ← npAdd t t3
  let m0 ← npAdd t t4
  return (m0, m.2.2.2)

end Verif
