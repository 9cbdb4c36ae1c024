import Verif.Model.GammaArrays
import Verif.Model.Support

/-!
# Model of constant nodes

`bayespy/inference/vmp/nodes/constant.py`, `Node._ensure_moments` (`node.py` lines 361-376) for a parent given as an array, and the
methods `from_values` and `compute_fixed_moments` of the classes of moments it calls.

The value is an array (`np.asanyarray` of whatever was given).  Counts are arrays of NumPy integers, Booleans or floats (`Vals`);
values of gamma, Dirichlet and beta variables are floats with NaN and infinities (`Flt`), the others real numbers.
-/

namespace Verif
open Spec

/-- An entry of the dimensions of a moment: a length or, by mistake, a tuple -/
inductive DimVal where
  | num (n : Nat)
  | tuple (l : List Nat)
deriving DecidableEq, Repr

/-- The attributes `x`, `dims`, `plates` and `u` of a `Constant` -/
structure ConstNode (χ δ α : Type) where
  x : χ
  dims : List (List δ)
  plates : List Nat
  u : List (Arr α)

variable {χ δ α : Type}

/-- `Constant.__init__`, lines 20-37; `dims` are the dimensions of the moments object and `u` its `compute_fixed_moments(x)`.  The
plates are the axes of the first moment less those of its dimensions. -/
def constantInit (dims : List (List δ)) (u : χ → Except PyErr (List (Arr α))) (x : χ) : Except PyErr (ConstNode χ δ α) := do
  let v ← u x
  match dims, v with
  | d :: _, u0 :: _ => return ⟨x, dims, if d.length > 0 then u0.shape.take (u0.shape.length - d.length) else u0.shape, v⟩
  | _, _ => throw .indexError

/-- The loop of `set_value`, lines 68-75 -/
def checkMomentShapes (plates : List Nat) : List (List Nat) → List (Arr α) → Except PyErr Unit
  | [], _ => .ok ()
  | d :: ds, v :: vs => do
    if (← isShapeSubset v.shape (plates ++ d)) then checkMomentShapes plates ds vs else throw .valueError
  | _ :: _, [] => .error .indexError

/-- `set_value(x)`, lines 64-76: the node after the call, and the exception if there is one.  The moments are stored before their shapes
are checked; the attribute `x` stays as it is. -/
def constantSetValue (u : χ → Except PyErr (List (Arr α))) (node : ConstNode χ Nat α) (x : χ) :
    ConstNode χ Nat α × Except PyErr Unit :=
  match u x with
  | .error e => (node, .error e)
  | .ok v => ({ node with u := v }, checkMomentShapes node.plates node.dims v)

/-- `random()`, lines 85-86 -/
def constantRandom (node : ConstNode χ δ α) : χ := node.x

/-! ### Gamma, `gamma.py` -/

/-- `GammaPriorMoments.compute_fixed_moments`, lines 42-51 -/
noncomputable def gammaPriorValue (a : Arr ℝ) : Except PyErr (List (Arr ℝ)) :=
  if npAnyOf a (fun v => decide (v ≤ 0)) then .error .valueError else .ok [a, npMap gammaln a]

/-- An array as a parent with `GammaPriorMoments`; `from_values`, lines 54-59 -/
noncomputable def gammaPriorConstant (a : Arr ℝ) : Except PyErr (ConstNode (Arr ℝ) Nat ℝ) := constantInit [[], []] gammaPriorValue a

/-- `GammaMoments.compute_fixed_moments`, lines 70-79 -/
noncomputable def gammaValue (x : Arr Flt) : Except PyErr (List (Arr Flt)) :=
  if npAnyOf x (fun v => v.lt 0) then .error .valueError else .ok [x, x.map Flt.log]

/-- An array as a parent with `GammaMoments`; `from_values`, lines 82-87 -/
noncomputable def gammaConstant (x : Arr Flt) : Except PyErr (ConstNode (Arr Flt) Nat Flt) := constantInit [[], []] gammaValue x

/-! ### Gaussian, `gaussian.py` -/

/-- `GaussianMoments.compute_fixed_moments`, lines 55-61 -/
def gaussianValue (ndim : Nat) (x : Arr ℝ) : Except PyErr (List (Arr ℝ)) := do
  let x := atleastAxes x ndim
  let xx ← linOuter x x ndim
  return [x, xx]

/-- `np.shape(x)[-ndim:]`, and `()` if `ndim` is zero: the shape in `from_values`, lines 65-72 -/
def valueShape (x : Arr ℝ) (ndim : Nat) : List Nat := if ndim = 0 then [] else trailingShape x.shape ndim

/-- An array as a parent with `GaussianMoments` over `ndim` axes; the moments object takes its number of axes from the shape. -/
def gaussianConstant (ndim : Nat) (x : Arr ℝ) : Except PyErr (ConstNode (Arr ℝ) Nat ℝ) :=
  let s := valueShape x ndim
  constantInit [s, s ++ s] (gaussianValue s.length) x

/-- `GaussianGammaMoments.compute_fixed_moments`, lines 182-202 -/
noncomputable def gaussianGammaValue (ndim : Nat) (v : Arr ℝ × Arr ℝ) : Except PyErr (List (Arr ℝ)) := do
  let u0 ← npMul v.1 (addTrailingAxes v.2 ndim)
  let xx ← linOuter v.1 v.1 ndim
  let u1 ← npMul xx (addTrailingAxes v.2 (2 * ndim))
  return [u0, u1, v.2, npMap Real.log v.2]

/-- A pair of arrays as a parent with `GaussianGammaMoments`; `from_values`, lines 206-215.  For scalar variables the shape given to the
moments object is a tuple of four empty tuples. -/
noncomputable def gaussianGammaConstant (ndim : Nat) (v : Arr ℝ × Arr ℝ) : Except PyErr (ConstNode (Arr ℝ × Arr ℝ) DimVal ℝ) :=
  let s := if ndim = 0 then List.replicate 4 (.tuple []) else (trailingShape v.1.shape ndim).map .num
  constantInit [s, s ++ s, [], []] (gaussianGammaValue s.length) v

/-! ### Wishart, `wishart.py` -/

/-- `WishartPriorMoments.compute_fixed_moments`, lines 32-36 -/
noncomputable def wishartPriorValue (k : Nat) (n : Arr ℝ) : Except PyErr (List (Arr ℝ)) := do
  let u1 ← multigammalnArr (npScaleBy 0.5 n) k
  return [n, u1]

/-- An array as a parent with `WishartPriorMoments` -/
noncomputable def wishartPriorConstant (k : Nat) (n : Arr ℝ) : Except PyErr (ConstNode (Arr ℝ) Nat ℝ) :=
  constantInit [[], []] (wishartPriorValue k) n

/-- `WishartMoments.compute_fixed_moments(Lambda)`, lines 55-64 -/
noncomputable def wishartValue (ndim : Nat) (L : Arr ℝ) : Except PyErr (List (Arr ℝ)) := do
  let U ← cholAxes L ndim
  let ldet ← cholLogdetAxes U ndim
  return [L, ldet]

/-- An array as a parent with `WishartMoments` over `ndim` axes; `from_values`, lines 102-115 -/
noncomputable def wishartConstant (ndim : Nat) (L : Arr ℝ) : Except PyErr (ConstNode (Arr ℝ) Nat ℝ) := do
  if L.shape.length < 2 * ndim then throw .valueError
  if ndim > 0 ∧ trailingShape L.shape ndim ≠ (trailingShape L.shape (2 * ndim)).take ndim then throw .valueError
  let s := valueShape L ndim
  constantInit [s ++ s, []] (wishartValue s.length) L

/-! ### Dirichlet and beta, `dirichlet.py` and `beta.py` -/

/-- `DirichletMoments.compute_fixed_moments`, lines 76-93 -/
noncomputable def dirichletValue (p : Arr Flt) : Except PyErr (List (Arr Flt)) :=
  if p.shape.length < 1 then .error .valueError
  else if npAnyOf p (fun v => v.lt 0) || npAnyOf p (fun v => v.gt 1) then .error .valueError
  else if npAnyOf (npSumLastFlt p) (fun s => !s.isClose1) then .error .valueError
  else .ok [logNormalised p]

/-- An array as a parent with `DirichletMoments`; `from_values`, lines 97-104 -/
noncomputable def dirichletConstant (p : Arr Flt) : Except PyErr (ConstNode (Arr Flt) Nat Flt) :=
  if p.shape.length < 1 then .error .valueError
  else constantInit [[axisLen p.shape 0]] dirichletValue p

/-- An array as a parent with `BetaMoments`, `beta.py` lines 30-47 -/
noncomputable def betaConstant (p : Arr Flt) : Except PyErr (ConstNode (Arr Flt) Nat Flt) :=
  constantInit [[2]] (fun p => dirichletValue (betaPair p)) p

/-- `special.gammaln` of a number that is not negative -/
noncomputable def gammalnFlt : Flt → Flt
  | .nan => .nan
  | .negInf => .posInf
  | .posInf => .posInf
  | .fin r => if r = 0 then .posInf else .fin (gammaln r)

/-- `ConcentrationMoments.compute_fixed_moments`, lines 37-51 -/
noncomputable def concentrationValue (a : Arr Flt) : Except PyErr (List (Arr Flt)) :=
  if a.shape.length < 1 then .error .valueError
  else if npAnyOf a (fun v => v.lt 0) then .error .valueError
  else do
    let z ← npMap2 (fun s t => s - t) ((npSumLastFlt a).map gammalnFlt) (npSumLastFlt (a.map gammalnFlt))
    return [a, z]

/-- An array as a parent with `ConcentrationMoments`; `from_values`, lines 55-62 -/
noncomputable def concentrationConstant (a : Arr Flt) : Except PyErr (ConstNode (Arr Flt) Nat Flt) :=
  if a.shape.length < 1 then .error .valueError
  else constantInit [[axisLen a.shape 0], []] concentrationValue a

/-! ### Counts -/

/-- An array as a parent with `CategoricalMoments` of `K` categories, `categorical.py` lines 30-56 -/
def categoricalConstant (K : Nat) (x : PyArr) : Except PyErr (ConstNode PyArr Nat ℝ) :=
  constantInit [[K]] (fun x => (categoricalFixed ℝ K x).map fun u => [u]) x

/-- An array as a parent with `PoissonMoments`, `poisson.py` lines 33-52 -/
def poissonConstant (x : Vals) : Except PyErr (ConstNode Vals Nat Flt) := constantInit [[]] poissonValue x

/-- The shape of the array -/
def Vals.shape : Vals → List Nat
  | .float x => x.shape
  | .int _ x => x.shape
  | .bool x => x.shape

/-- An array as a parent with `MultinomialMoments`; `from_values`, `multinomial.py` lines 57-59, gives the tuple `(D,)` where the number
of categories is expected. -/
def multinomialConstant (x : Vals) : Except PyErr (ConstNode Vals DimVal Flt) :=
  if x.shape.length < 1 then .error .indexError
  else constantInit [[.tuple [axisLen x.shape 0]]] multinomialValue x

end Verif
