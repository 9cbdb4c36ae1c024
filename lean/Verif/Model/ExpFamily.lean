import Mathlib.Algebra.Ring.Defs
import Verif.Model.Engine
import Verif.Model.Message
import Verif.Model.SumToShape
import Verif.Model.Gate

/-!
# Model of the state of a stochastic node: `Stochastic` and `ExponentialFamily`

`bayespy/inference/vmp/nodes/stochastic.py` and `expfamily.py`.  The distribution (`moments` below), the messages
from parents and children and the fixed moments of a value are arbitrary and may raise.  `self.phi`, `self.u`
etc. are arrays of abstract numbers.  A raised exception keeps the state reached so far (`Py`).
-/

namespace Verif
open Spec

/-- The parts of a node that do not change: plates, shapes of the moments, `self._phi_bias`, and
`self._distribution.compute_moments_and_cgf(phi, mask=mask)`. -/
structure ENode (α : Type) where
  plates : List Nat
  dims : List (List Nat)
  phiBias : List (Arr α)
  moments : List (Arr α) → Arr Bool → Except PyErr (List (Arr α) × Arr α)

/-- The attributes that change. -/
structure EState (α : Type) where
  u : List (Arr α)
  phi : List (Arr α)
  g : Arr α
  f : Arr α
  observed : Arr Bool
  mask : Arr Bool
  annealing : α

/-- `np.logical_not(X)` -/
def npNot (X : Arr Bool) : Arr Bool := { shape := X.shape, get := fun c => !X.get c }

/-- `np.logical_or(X, Y)` -/
def npOr (X Y : Arr Bool) : Except PyErr (Arr Bool) := do
  let s ← broadcastedShape [X.shape, Y.shape]
  return { shape := s, get := fun c => X.at c || Y.at c }

/-- `np.all(X)` -/
def npAll (X : Arr Bool) : Bool := (indices X.shape).all fun i => X.get (coord i)

/-- `np.where(mask, X, Y)` -/
def npWhere3 {α : Type _} (mask : Arr Bool) (X Y : Arr α) : Except PyErr (Arr α) := do
  let s ← broadcastedShape [mask.shape, X.shape, Y.shape]
  return { shape := s, get := fun c => if mask.at c then X.at c else Y.at c }

/-- `np.copyto(X, Y, where=mask)` when `Y` and the mask broadcast to the shape of `X`. -/
def npCopyTo {α : Type _} (X Y : Arr α) (mask : Arr Bool) : Arr α :=
  { shape := X.shape, get := fun c => if mask.at c then Y.at c else X.get c }

/-- `a * X` -/
def npScaleBy {α : Type _} [Mul α] (a : α) (X : Arr α) : Arr α := { shape := X.shape, get := fun c => a * X.get c }

/-- `X - Y` -/
def npSub {α : Type _} [Sub α] (X Y : Arr α) : Except PyErr (Arr α) := do
  let s ← broadcastedShape [X.shape, Y.shape]
  return { shape := s, get := fun c => X.at c - Y.at c }

/-- One turn of the loop of `Stochastic._check_shape`, `stochastic.py` lines 196-218.
Negative slices `sh[:-ndim]`, `sh[-ndim:]` of a shorter tuple are the empty tuple and the whole tuple. -/
def checkShape1 (plates dims sh : List Nat) (broadcast : Bool) : Except PyErr Unit := do
  if !broadcast then
    if sh ≠ plates ++ dims then throw .valueError else pure ()
  else if dims.length = 0 then
    let b ← isShapeSubset sh (plates ++ dims)
    if !b then throw .valueError else pure ()
  else
    let b ← isShapeSubset (sh.take (sh.length - dims.length)) plates
    if !(b && sh.drop (sh.length - dims.length) = dims) then throw .valueError else pure ()

/-- `Stochastic._check_shape(u, broadcast)`, lines 191-220. -/
def checkShape {α : Type} (plates : List Nat) (dims : List (List Nat)) (u : List (Arr α)) (broadcast : Bool) :
    Except PyErr Unit :=
  if u.length ≠ dims.length then .error .valueError
  else (dims.zip u).forM fun p => checkShape1 plates p.1 p.2.shape broadcast

section
variable {α : Type} (N : ENode α)

/-- Last part of the loop body of `_set_moments`, lines 252-273, after the moments have been copied. -/
def setMomentAxes (ind : Nat) (u : Arr α) (dims : List Nat) : Py (EState α) Unit := fun s =>
  match s.u[ind]? with
  | none => (.error .indexError, s)
  | some cur =>
    if (N.plates ++ dims).length > cur.shape.length then
      (.ok (), { s with u := s.u.set ind (addLeadingAxes u ((N.plates ++ dims).length - cur.shape.length)) })
    else if (N.plates ++ dims).length < cur.shape.length then (.error .runtimeError, s)
    else (.ok (), s)

/-- Loop body of `Stochastic._set_moments`, lines 229-273. -/
def setMoment (mask : Arr Bool) (ind : Nat) (u : Arr α) (dims : List Nat) : Py (EState α) Unit := fun s =>
  match s.u[ind]? with
  | none => (.error .indexError, s)
  | some old =>
    let umask := addTrailingAxes mask dims.length
    match broadcastedShape [old.shape, u.shape, umask.shape] with
    | .error e => (.error e, s)
    | .ok sh => match repeatToShape old sh with
      | .error e => (.error e, s)
      | .ok rep => setMomentAxes N ind u dims { s with u := s.u.set ind (npCopyTo rep u umask) }

/-- The loop of `Stochastic._set_moments`. -/
def setMomentsLoop (mask : Arr Bool) : Nat → List (Arr α × List Nat) → Py (EState α) Unit
  | _, [] => pure ()
  | ind, (u, d) :: rest => do
    setMoment N mask ind u d
    setMomentsLoop mask (ind + 1) rest

/-- `Stochastic._set_moments(u, mask, broadcast)`, lines 223-273. -/
def setMoments (u : List (Arr α)) (mask : Arr Bool) (broadcast : Bool) : Py (EState α) Unit := do
  Py.lift (checkShape N.plates N.dims u broadcast)
  setMomentsLoop N mask 0 (u.zip N.dims)

/-- `ExponentialFamily._set_moments_and_cgf(u, g, mask)`, `expfamily.py` lines 252-257. -/
def setMomentsAndCgf (u : List (Arr α)) (g : Arr α) (mask : Arr Bool) : Py (EState α) Unit := do
  setMoments N u mask true
  let s ← Py.get
  let g ← Py.lift (npWhere3 mask g s.g)
  Py.modify fun s => { s with g := g }

/-- `_update_moments_and_cgf`, lines 355-366. -/
def updateMomentsAndCgf : Py (EState α) Unit := do
  let s ← Py.get
  let ug ← Py.lift (N.moments s.phi (npNot s.observed))
  setMomentsAndCgf N ug.1 ug.2 (npNot s.observed)

/-- `[a + b for (a, b) in zip(compute_phi_from_parents(*u_parents), self._phi_bias)]` -/
def phiFromParents [Add α] (phiP : List (Arr α)) : Except PyErr (List (Arr α)) :=
  (phiP.zip N.phiBias).mapM fun p => npAdd p.1 p.2

/-- Loop body of `_update_phi_from_parents`, lines 231-250: leading axes are added, or removed (a reshape that
fails unless they have unit length), and the shape is checked. -/
def fixPhi (dims : List Nat) (phi : Arr α) : Except PyErr (Arr α) := do
  let n := N.plates.length + dims.length
  let phi ← if phi.shape.length < n then Except.ok (addLeadingAxes phi (n - phi.shape.length))
    else npSqueezeLeading phi (phi.shape.length - n)
  let b ← isShapeSubset phi.shape (N.plates ++ dims)
  if !b then throw .valueError else return phi

/-- The loop of `_update_phi_from_parents`: `self.phi[i]` is replaced one by one. -/
def fixPhiLoop : Nat → List (List Nat) → Py (EState α) Unit
  | _, [] => pure ()
  | i, d :: rest => do
    let s ← Py.get
    match s.phi[i]? with
    | none => pure ()
    | some phi =>
      let phi ← Py.lift (fixPhi N d phi)
      Py.modify fun s => { s with phi := s.phi.set i phi }
      fixPhiLoop (i + 1) rest

/-- `_update_phi_from_parents(*u_parents)`, lines 215-250; `phiP` is the result of `compute_phi_from_parents`. -/
def updatePhiFromParents [Add α] (phiP : List (Arr α)) : Py (EState α) Unit := do
  let phi ← Py.lift (phiFromParents N phiP)
  Py.modify fun s => { s with phi := phi }
  fixPhiLoop N 0 N.dims

/-- `_update_distribution_and_lowerbound(m_children, *u_parents)`, lines 343-352. -/
def updateDistribution [Add α] [Mul α] (m : List (Arr α)) (phiP : List (Arr α)) : Py (EState α) Unit := do
  updatePhiFromParents N phiP
  let s ← Py.get
  let phi ← Py.lift ((s.phi.zip m).mapM fun p => do return npScaleBy s.annealing (← npAdd p.1 p.2))
  Py.modify fun s => { s with phi := phi }
  updateMomentsAndCgf N

/-- `Stochastic.update(annealing)`, `stochastic.py` lines 276-282.  `phiP` stands for `compute_phi_from_parents` of
the messages from the parents and `m` for the messages from the children. -/
def nodeUpdate [Add α] [Mul α] [One α] [DecidableEq α] (annealing : α) (phiP m : Except PyErr (List (Arr α))) :
    Py (EState α) Unit := fun s =>
  if npAll s.observed then (.ok (), s)
  else (do
    let m ← Py.lift m
    let phiP ← Py.lift phiP
    updateDistribution N (if annealing ≠ 1 then m.map (npScaleBy annealing) else m) phiP) s

/-- `_initialize_from_parent_moments(*u_parents)`, `expfamily.py` lines 168-179; used by `initialize_from_prior` and
`initialize_from_parameters`. -/
def initFromParents [Add α] (phiP : Except PyErr (List (Arr α))) : Py (EState α) Unit := fun s =>
  if npAll s.observed then (.ok (), s)
  else (do
    let phiP ← Py.lift phiP
    updatePhiFromParents N phiP
    updateMomentsAndCgf N) s

/-- `initialize_from_value(x)`, lines 193-212 (and `initialize_from_random`); `u` is `compute_fixed_moments(x)` and
`inf` is `np.inf`.  The `ValueError` for a wrong shape is a `TypeError` if `x` has not two axes (line 202 formats the shape
into a string with two fields). -/
def initFromValue (inf : Arr α) (u : Except PyErr (List (Arr α))) : Py (EState α) Unit := do
  let s ← Py.get
  let u ← Py.lift u
  Py.lift ((u.zip N.dims).forM fun p =>
    if 0 < p.2.length ∧ p.1.shape.drop (p.1.shape.length - p.2.length) ≠ p.2 then .error .valueError else .ok ())
  setMomentsAndCgf N u inf (npNot s.observed)

/-- `set_parameters(x)`, lines 330-340. -/
def nodeSetParameters (x : List (Arr α)) : Py (EState α) Unit := do
  Py.modify fun s => { s with phi := x }
  updateMomentsAndCgf N

/-- `Node._update_mask`, `node.py` lines 457-475; `child` is the combined mask of the children and `parents` the
outcome of the updates of the parents. -/
def nodeUpdateMask (child : Except PyErr (Arr Bool)) (parents : Except PyErr Unit) : Py (EState α) Unit := do
  let cm ← Py.lift child
  let s ← Py.get
  let m ← Py.lift (npOr cm s.observed)
  Py.modify fun s => { s with mask := m }
  let b ← Py.lift (isShapeSubset m.shape N.plates)
  if !b then Py.raise .valueError else Py.lift parents

/-- `ExponentialFamily.observe(x, mask)`, `expfamily.py` lines 369-398; `fixed` is `compute_fixed_moments_and_f(x)`. -/
def nodeObserve (fixed : Except PyErr (List (Arr α) × Arr α)) (mask : Arr Bool) (child : Except PyErr (Arr Bool))
    (parents : Except PyErr Unit) : Py (EState α) Unit := do
  let uf ← Py.lift fixed
  setMoments N uf.1 mask false
  let s ← Py.get
  let f ← Py.lift (npWhere3 mask uf.2 s.f)
  Py.modify fun s => { s with f := f }
  Py.modify fun s => { s with observed := mask }
  nodeUpdateMask N child parents

/-- `Stochastic.unobserve()`, `stochastic.py` lines 291-294. -/
def nodeUnobserve (child : Except PyErr (Arr Bool)) (parents : Except PyErr Unit) : Py (EState α) Unit := do
  Py.modify fun s => { s with observed := { shape := [], get := fun _ => false } }
  nodeUpdateMask N child parents

/-- One array of `get_riemannian_gradient`, `expfamily.py` lines 275-278. -/
def riemannian1 [CommRing α] (annealing : α) (shape : List Nat) (phi m old : Arr α) : Except PyErr (Arr α) := do
  let a ← npAdd phi m
  let d ← npSub (npScaleBy annealing a) old
  npMul d ({ shape := shape, get := fun _ => 1 } : Arr α)

/-- `get_riemannian_gradient()`, lines 260-280. -/
def riemannianGradient [CommRing α] (phiP m : Except PyErr (List (Arr α))) (s : EState α) :
    Except PyErr (List (Arr α)) := do
  let phiP ← phiP
  let m ← m
  let phi ← phiFromParents N phiP
  (((phi.zip m).zip s.phi).zip N.dims).mapM fun q =>
    riemannian1 s.annealing (N.plates ++ q.2) q.1.1.1 q.1.1.2 q.1.2

end

end Verif
