import Verif.Model.ExpFamily
import Verif.Model.Mixture
import Verif.Model.Support

/-!
# Model of `ExponentialFamily.lower_bound_contribution` and `logpdf` on arrays, `expfamily.py`

Floats are real numbers, infinities or NaN (`Flt`), without rounding.  The natural parameters and the cumulant function computed from
the parents are arguments.  `self.plates_multiplier` is a list of real numbers.  `self.annealing` is a Python number, so that `1 / 0`
raises.
-/

namespace Verif
open Spec

namespace Flt

noncomputable instance : Zero Flt := ⟨.fin 0⟩

theorem add_def (a b : Flt) : a + b = Flt.add a b := rfl

theorem add_assoc' (a b c : Flt) : a + b + c = a + (b + c) := by
  cases a <;> cases b <;> cases c <;> simp only [add_def, Flt.add, _root_.add_assoc]

theorem add_comm' (a b : Flt) : a + b = b + a := by
  cases a <;> cases b <;> simp only [add_def, Flt.add, _root_.add_comm]

theorem zero_add' (a : Flt) : 0 + a = a := by
  show Flt.add (.fin 0) a = a
  cases a <;> simp only [Flt.add, _root_.zero_add]

/-- sums in any order -/
noncomputable instance : AddCommMonoid Flt where
  add_assoc := add_assoc'
  zero_add := zero_add'
  add_zero a := by rw [add_comm', zero_add']
  add_comm := add_comm'
  nsmul := nsmulRec

noncomputable instance : DecidableEq Flt := Classical.decEq _

end Flt

/-- `1 / x` of a Python number -/
noncomputable def pyRecip : Flt → Except PyErr Flt
  | .nan => .ok .nan
  | .fin a => if a = 0 then .error .zeroDivisionError else .ok (.fin (1 / a))
  | _ => .ok 0

/-- `-X` -/
noncomputable def npNeg (X : Arr Flt) : Arr Flt := { shape := X.shape, get := fun c => -X.get c }

/-- a Python number as an array -/
def fltNum (a : Flt) : Arr Flt := ⟨[], fun _ => a⟩

/-- The loop body of `lower_bound_contribution`, lines 450-466 -/
noncomputable def boundTerm (plates : List Nat) (latent : Arr Bool) (T : Flt) (dims : List Nat) (phiP phiQ u : Arr Flt) :
    Except PyErr (Arr Flt) := do
  let m := addTrailingAxes (addLeadingAxes latent (plates.length - latent.shape.length)) dims.length
  let q ← npWhere m phiQ
  let d ← npSub phiP (npScaleBy T q)
  let d ← whereNonzero u d
  let z ← npMul d u
  npSumLast z dims.length

/-- `lower_bound_contribution` before the sum over the plates, lines 411-468; `phiP` and `gp` are the results of
`compute_phi_from_parents` and `compute_cgf_from_parents` -/
noncomputable def plateBounds (N : ENode Flt) (s : EState Flt) (phiP : List (Arr Flt)) (gp : Arr Flt) : Except PyErr (Arr Flt) := do
  let T ← pyRecip s.annealing
  let phi := (phiP.zip N.phiBias).map (·.1)
  let latent := npNot s.observed
  let z := if npAll s.observed then fltNum .nan else if T = .fin 1 then npNeg s.g else npScaleBy (-T) s.g
  let w ← npWhere3 s.observed s.f z
  let L ← npAdd gp w
  (phi.zip (s.phi.zip (s.u.zip N.dims))).foldlM (fun L t => do
    npAdd L (← boundTerm N.plates latent T t.2.2.2 t.1 t.2.1 t.2.2.1)) L

/-- `lower_bound_contribution(ignore_masked=...)`, lines 400-480 -/
noncomputable def lowerBoundContribution (N : ENode Flt) (mult : List ℝ) (s : EState Flt) (phiP : List (Arr Flt)) (gp : Arr Flt)
    (ignoreMasked : Bool) : Except PyErr Flt := do
  let L ← plateBounds N s phiP gp
  if ignoreMasked then
    let W ← npWhere s.mask L
    let r ← broadcastingMultiplier N.plates [L.shape, s.mask.shape]
    return sumOver W.shape W.get * .fin r * .fin mult.prod
  else
    let r ← broadcastingMultiplier N.plates [L.shape]
    return sumOver L.shape L.get * .fin r * .fin mult.prod

/-- `logpdf(X)`, lines 483-498; `fixed` is `compute_fixed_moments_and_f(X)`.  A mask other than `True` is not implemented. -/
noncomputable def nodeLogpdf (N : ENode Flt) (s : EState Flt) (fixed : Except PyErr (List (Arr Flt) × Arr Flt)) (masked : Bool) :
    Except PyErr (Arr Flt) := do
  if masked then throw .notImplemented
  let uf ← fixed
  let Z ← (s.phi.zip (uf.1.zip N.dims)).foldlM (fun Z t => do
    let y ← npMul t.1 t.2.1
    npAdd Z (← npSumLast y t.2.2.length)) (fltNum 0)
  let gf ← npAdd s.g uf.2
  npAdd gf Z

end Verif
