import Verif.Model.ExpFamily
import Verif.Model.Categorical
import Verif.Model.Dist
import Verif.Model.BlockBandedSolve

/-!
# Model of the checks of observed and initial values

`compute_fixed_moments_and_f` of the distributions (called by `observe`) and `compute_fixed_moments` of the moments
(called by `initialize_from_value`, and for constants given as parents) of `poisson.py`, `binomial.py`,
`multinomial.py`, `gamma.py`, `dirichlet.py`, `beta.py` and `wishart.py`.

Here the types of the elements matter, so integers have a type with a range in which `x + 1` wraps around (NumPy keeps
the type of an array with at least one axis when a Python integer is added), and floats have NaN and infinities.  Rounding
is not modelled.  The number of trials is an array of integers of unlimited size.
-/

namespace Verif
open Spec

/-! ### Floats without rounding -/

/-- A float: NaN, an infinity or a real number -/
inductive Flt where
  | nan
  | negInf
  | fin (r : ℝ)
  | posInf

namespace Flt

protected noncomputable def add : Flt → Flt → Flt
  | nan, _ => nan
  | _, nan => nan
  | posInf, negInf => nan
  | negInf, posInf => nan
  | posInf, _ => posInf
  | _, posInf => posInf
  | negInf, _ => negInf
  | _, negInf => negInf
  | fin a, fin b => fin (a + b)

protected noncomputable def neg : Flt → Flt
  | nan => nan
  | posInf => negInf
  | negInf => posInf
  | fin a => fin (-a)

/-- `r * ±inf`; `pos` is the sign of the infinity -/
noncomputable def mulInf (r : ℝ) (pos : Bool) : Flt :=
  if r = 0 then nan else if (0 < r ↔ pos = true) then posInf else negInf

protected noncomputable def mul : Flt → Flt → Flt
  | nan, _ => nan
  | _, nan => nan
  | fin a, fin b => fin (a * b)
  | fin a, posInf => mulInf a true
  | fin a, negInf => mulInf a false
  | posInf, fin a => mulInf a true
  | negInf, fin a => mulInf a false
  | posInf, posInf => posInf
  | negInf, negInf => posInf
  | posInf, negInf => negInf
  | negInf, posInf => negInf

noncomputable instance : Add Flt := ⟨Flt.add⟩
noncomputable instance : Neg Flt := ⟨Flt.neg⟩
noncomputable instance : Sub Flt := ⟨fun a b => a + -b⟩
noncomputable instance : Mul Flt := ⟨Flt.mul⟩

/-- `x < y` for a real number `y`; comparisons with NaN are false -/
noncomputable def lt (x : Flt) (y : ℝ) : Bool :=
  match x with
  | nan => false
  | negInf => true
  | fin a => decide (a < y)
  | posInf => false

/-- `x > y` -/
noncomputable def gt (x : Flt) (y : ℝ) : Bool :=
  match x with
  | nan => false
  | negInf => false
  | fin a => decide (y < a)
  | posInf => true

/-- `np.log` -/
noncomputable def log : Flt → Flt
  | nan => nan
  | negInf => nan
  | posInf => posInf
  | fin a => if a < 0 then nan else if a = 0 then negInf else fin (Real.log a)

/-- `x / s`; `s` is a sum close to one where it is used -/
noncomputable def divBy : Flt → Flt → Flt
  | fin a, fin s => if s = 0 then nan else fin (a / s)
  | _, _ => nan

/-- `np.isclose(x, 1.0)`: `|x - 1| ≤ atol + rtol * |1|` -/
noncomputable def isClose1 : Flt → Bool
  | fin a => decide (|a - 1| ≤ 1 / 10 ^ 8 + 1 / 10 ^ 5)
  | _ => false

/-- `np.sum` of a list -/
noncomputable def sum (l : List Flt) : Flt := l.foldr (· + ·) (fin 0)

end Flt

/-- `special.gammaln` of an integer: infinite at the poles -/
noncomputable def gammalnInt (n : Int) : Flt := if n ≤ 0 then .posInf else .fin (gammaln n)

/-! ### Arrays with a type -/

/-- An integer type of NumPy -/
structure IntType where
  signed : Bool
  bits : Nat

/-- The smallest value -/
def IntType.lo (t : IntType) : Int := if t.signed then -2 ^ (t.bits - 1) else 0

/-- The smallest number above all values -/
def IntType.hi (t : IntType) : Int := if t.signed then 2 ^ (t.bits - 1) else 2 ^ t.bits

/-- The value stored for a number: arithmetic modulo the number of values -/
def IntType.wrap (t : IntType) (n : Int) : Int := (n - t.lo) % (t.hi - t.lo) + t.lo

/-- An array of values given by the user -/
inductive Vals where
  | int (t : IntType) (x : Arr Int)
  | bool (x : Arr Bool)
  | float (x : Arr Flt)

/-- `misc.isinteger(x)`, `misc.py` lines 698-700, and the values as integers -/
def Vals.ints : Vals → Option (Arr Int)
  | .int _ x => some x
  | .bool x => some { shape := x.shape, get := fun c => if x.get c then 1 else 0 }
  | .float _ => none

/-- `x + 1`; booleans are converted to the default integer -/
def Vals.plusOne : Vals → Arr Int
  | .int t x => { shape := x.shape, get := fun c => t.wrap (x.get c + 1) }
  | .bool x => { shape := x.shape, get := fun c => (if x.get c then 1 else 0) + 1 }
  | .float x => { shape := x.shape, get := fun _ => 0 }

/-- Elementwise function -/
def Arr.map {α β : Type _} (f : α → β) (x : Arr α) : Arr β := { shape := x.shape, get := fun c => f (x.get c) }

/-- Elementwise function of two arrays with broadcasting -/
def npMap2 {α β γ : Type _} (f : α → β → γ) (x : Arr α) (y : Arr β) : Except PyErr (Arr γ) := do
  let s ← broadcastedShape [x.shape, y.shape]
  return { shape := s, get := fun c => f (x.at c) (y.at c) }

/-- The coordinate `c` with `t` along a new last axis -/
def atLast (c : Nat → Nat) (t : Nat) : Nat → Nat
  | 0 => t
  | k + 1 => c k

/-- The elements along the last axis -/
def Arr.lastAxis {α : Type _} (x : Arr α) (c : Nat → Nat) : List α :=
  (List.range (axisLen x.shape 0)).map fun t => x.get (atLast c t)

/-- `np.sum(x, axis=-1)`; `AxisError` is a `ValueError` -/
def npSumLastInt (x : Arr Int) : Except PyErr (Arr Int) :=
  if x.shape.length = 0 then .error .valueError
  else .ok { shape := x.shape.dropLast, get := fun c => (x.lastAxis c).sum }

/-- `np.sum(x, axis=-1)` of floats -/
noncomputable def npSumLastFlt (x : Arr Flt) : Arr Flt :=
  { shape := x.shape.dropLast, get := fun c => Flt.sum (x.lastAxis c) }

/-- An integer as a float -/
def intFlt (n : Int) : Flt := .fin n

/-! ### Poisson, binomial and multinomial variables -/

/-- `PoissonDistribution.compute_fixed_moments_and_f`, `poisson.py` lines 102-121 -/
noncomputable def poissonObserve (x : Vals) : Except PyErr (List (Arr Flt) × Arr Flt) :=
  match x.ints with
  | none => .error .valueError
  | some xi =>
    if npAnyOf xi (fun v => v < 0) then .error .valueError
    else .ok ([xi.map intFlt], x.plusOne.map fun v => -gammalnInt v)

/-- `PoissonMoments.compute_fixed_moments`, lines 31-40 -/
def poissonValue (x : Vals) : Except PyErr (List (Arr Flt)) :=
  match x.ints with
  | none => .error .valueError
  | some xi => .ok [xi.map intFlt]

/-- `BinomialDistribution.compute_fixed_moments_and_f`, `binomial.py` lines 119-134 -/
noncomputable def binomialObserve (N : Arr Int) (x : Vals) : Except PyErr (List (Arr Flt) × Arr Flt) :=
  match x.ints with
  | none => .error .valueError
  | some xi =>
    if npAnyOf xi (fun v => v < 0) then .error .valueError
    else do
      let big ← npMap2 (fun v n => decide (v > n)) xi N
      if npAnyOf big id then throw .valueError
      else
        let f ← npMap2 (fun a b => a - b) (N.map fun n => gammalnInt (n + 1)) (x.plusOne.map gammalnInt)
        let rest ← npMap2 (fun n v => gammalnInt (n - v + 1)) N xi
        let f ← npMap2 (fun a b => a - b) f rest
        return ([xi.map intFlt], f)

/-- `BinomialMoments.compute_fixed_moments`, lines 40-48: `super().compute_fixed_moments()` misses its argument.
Floats can be compared with `N` too. -/
noncomputable def binomialValue (N : Arr Int) (x : Vals) : Except PyErr (List (Arr Flt)) := do
  let big ← match x with
    | .float x => npMap2 (fun (v : Flt) (n : Int) => v.gt n) x N
    | .int _ x => npMap2 (fun v n => decide (v > n)) x N
    | .bool x => npMap2 (fun (v : Bool) n => decide ((if v then (1 : Int) else 0) > n)) x N
  if npAnyOf big id then throw .valueError else throw .typeError

/-- `MultinomialDistribution.compute_fixed_moments_and_f`, `multinomial.py` lines 130-152 -/
noncomputable def multinomialObserve (N : Arr Int) (x : Vals) : Except PyErr (List (Arr Flt) × Arr Flt) :=
  match x.ints with
  | none => .error .valueError
  | some xi =>
    if npAnyOf xi (fun v => v < 0) then .error .valueError
    else do
      let total ← npSumLastInt xi
      let differ ← npMap2 (fun v n => decide (v ≠ n)) total N
      if npAnyOf differ id then throw .valueError
      else
        let f ← npMap2 (fun a b => a - b) (N.map fun n => gammalnInt (n + 1))
          (npSumLastFlt (x.plusOne.map gammalnInt))
        return ([xi.map intFlt], f)

/-- `MultinomialMoments.compute_fixed_moments`, lines 36-54 -/
def multinomialValue (x : Vals) : Except PyErr (List (Arr Flt)) :=
  match x.ints with
  | none => .error .valueError
  | some xi => if npAnyOf xi (fun v => v < 0) then .error .valueError else .ok [xi.map intFlt]

/-! ### Gamma, Dirichlet and beta variables -/

/-- `GammaDistribution.compute_fixed_moments_and_f`, `gamma.py` lines 163-173 -/
noncomputable def gammaObserve (x : Arr Flt) : Except PyErr (List (Arr Flt) × Arr Flt) :=
  if npAnyOf x (fun v => v.lt 0) then .error .valueError
  else .ok ([x, x.map Flt.log], x.map fun v => -v.log)

/-- `p / np.sum(p, axis=-1, keepdims=True)` and the logarithm -/
noncomputable def logNormalised (p : Arr Flt) : Arr Flt :=
  { shape := p.shape
    get := fun c => ((p.get c).divBy (Flt.sum (p.lastAxis fun k => c (k + 1)))).log }

/-- `DirichletDistribution.compute_fixed_moments_and_f`, `dirichlet.py` lines 170-203 -/
noncomputable def dirichletObserve (p : Arr Flt) : Except PyErr (List (Arr Flt) × Arr Flt) :=
  if p.shape.length < 1 then .error .valueError
  else if npAnyOf p (fun v => v.lt 0) || npAnyOf p (fun v => v.gt 1) then .error .valueError
  else if npAnyOf (npSumLastFlt p) (fun s => !s.isClose1) then .error .valueError
  else .ok ([logNormalised p], (npSumLastFlt (logNormalised p)).map fun v => -v)

/-- `np.asanyarray(p)[...,None] * [1,-1] + [0,1]`, `beta.py` line 91 -/
noncomputable def betaPair (p : Arr Flt) : Arr Flt :=
  { shape := p.shape ++ [2]
    get := fun c => p.get (fun k => c (k + 1)) * .fin (if c 0 = 0 then 1 else -1) + .fin (if c 0 = 0 then 0 else 1) }

/-- `BetaDistribution.compute_fixed_moments_and_f`, `beta.py` lines 87-92 -/
noncomputable def betaObserve (p : Arr Flt) : Except PyErr (List (Arr Flt) × Arr Flt) := dirichletObserve (betaPair p)

/-! ### Wishart variables -/

/-- `WishartDistribution.compute_fixed_moments_and_f`, `wishart.py` lines 207-225, for one matrix: `Λ`, its
log-determinant and `f` -/
noncomputable def wishartObserve {D : ℕ} (Λ : Matrix (Fin D) (Fin D) ℝ) :
    Except PyErr ((Matrix (Fin D) (Fin D) ℝ × ℝ) × ℝ) := do
  let U ← chol Λ
  let ldet := cholLogdet U
  return ((Λ, ldet), -((D : ℝ) + 1) / 2 * ldet)

/-! ### The log-density of a node -/

/-- `ExponentialFamily.logpdf(X)`, `expfamily.py` lines 484-498, for one plate: `self.g + f + Z`, where `Z` adds the sums of
`phi_d * u_d` over the elements of each moment -/
noncomputable def fltLogpdf (phi u : List (List Flt)) (g f : Flt) : Flt :=
  g + f + ((phi.zip u).foldl (fun z p => z + Flt.sum (p.1.zipWith (· * ·) p.2)) (.fin 0))

end Verif
