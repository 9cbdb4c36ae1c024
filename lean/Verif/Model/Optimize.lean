import Verif.Model.Engine

/-!
# Model of `VB.optimize` and `VB.pattern_search`, `bayespy/inference/vmp/vmp.py` lines 402-662

The parameters of one node are an abstract type `P` (a list of arrays in the code) with abstract
operations that may raise.  `while` loops without a bound get a number of allowed passes (`fuel`);
the result `none` means that the loop has not ended within it.
-/

namespace Verif

/-- Further floating-point operations: `allclose a b` is `np.allclose(a, b, rtol=1e-8)`, `threshold`
is `2 ** (-10)`. -/
class OptOps (F : Type _) extends FloatOps F where
  one : F
  neg : F → F
  inf : F
  sqrt2 : F
  threshold : F
  isNan : F → Bool
  isZero : F → Bool
  allclose : F → F → Bool

/-- Methods of nodes used by the optimisers. -/
structure OptEnv (ν V O M F P : Type _) extends VBEnv ν V O M F where
  getParameters : ν → (ν → NodeState V O M F) → P
  setParameters : ν → P → (ν → NodeState V O M F) → Except PyErr Unit × (ν → NodeState V O M F)
  riemannian : ν → (ν → NodeState V O M F) → Except PyErr P
  gradient : ν → P → (ν → NodeState V O M F) → Except PyErr P
  /-- `[z1 + scale*z2 for (z1, z2) in zip(y1, y2)]` -/
  addScaled : P → P → F → Except PyErr P
  /-- `sum(np.dot(np.ravel(z1), np.ravel(z2)))` for one node -/
  dot : P → P → Except PyErr F

section
variable {ν V O M F P : Type _} [DecidableEq ν] [OptOps F]

/-- `VB.get_gradients`, lines 402-413: the Riemannian gradients. -/
def riemGradients (env : OptEnv ν V O M F P) (keys : List (NodeKey ν)) (s : VBState ν V O M F) :
    Except PyErr (List P) :=
  keys.mapM fun k => do
    let n ← vbGetitem env.toVBEnv s.model k
    env.riemannian n s.world

/-- `VB.get_gradients`, lines 402-413: the Euclidean gradients. -/
def euclGradients (env : OptEnv ν V O M F P) (keys : List (NodeKey ν)) (rg : List P)
    (s : VBState ν V O M F) : Except PyErr (List P) :=
  (keys.zip rg).mapM fun (k, r) => do
    let n ← vbGetitem env.toVBEnv s.model k
    env.gradient n r s.world

/-- `VB.get_parameters`, lines 416-421. -/
def getParameters (env : OptEnv ν V O M F P) (keys : List (NodeKey ν)) (s : VBState ν V O M F) :
    Except PyErr (List P) :=
  keys.mapM fun k => do
    let n ← vbGetitem env.toVBEnv s.model k
    return env.getParameters n s.world

/-- `self[node].set_parameters(xi)`. -/
def setNode (env : OptEnv ν V O M F P) (k : NodeKey ν) (p : P) : Py (VBState ν V O M F) Unit :=
  fun s => match vbGetitem env.toVBEnv s.model k with
    | .error e => (.error e, s)
    | .ok n =>
      let r := env.setParameters n p s.world
      (r.1, { s with world := r.2 })

/-- `VB.set_parameters`, lines 424-430. -/
def setParameters (env : OptEnv ν V O M F P) :
    List P → List (NodeKey ν) → Py (VBState ν V O M F) Unit
  | p :: ps, k :: ks => do
    setNode env k p
    setParameters env ps ks
  | _, _ => pure ()

/-- `VB.add`, lines 457-467. -/
def addVec (env : OptEnv ν V O M F P) (x y : List P) (scale : F) : Except PyErr (List P) :=
  (x.zip y).mapM fun (a, b) => env.addScaled a b scale

/-- `VB.dot`, lines 444-454. -/
def dotVec (env : OptEnv ν V O M F P) (x y : List P) : Except PyErr F :=
  (x.zip y).foldlM (fun v (a, b) => do return FloatOps.add v (← env.dot a b)) FloatOps.zero

/-- `self[node].update()`; a node without this method raises. -/
def updateOne (env : OptEnv ν V O M F P) (k : NodeKey ν) : Py (VBState ν V O M F) Unit :=
  fun s => match vbGetitem env.toVBEnv s.model k with
    | .error e => (.error e, s)
    | .ok n =>
      if env.hasUpdate n then
        let r := env.update n s.world
        (r.1, { s with world := r.2 })
      else (.error .exception, s)

/-- `for node in nodes: self[node].update()`. -/
def updateEach (env : OptEnv ν V O M F P) : List (NodeKey ν) → Py (VBState ν V O M F) Unit
  | [] => pure ()
  | k :: ks => do
    updateOne env k
    updateEach env ks

/-- The test of lines 552-558: reject a new bound `L`. -/
def rejects (s : VBState ν V O M F) (L : F) : Bool :=
  let prev := s.L.getD (s.iter - 1) FloatOps.nan
  OptOps.isNan L || (decide (s.iter > 0) && FloatOps.lt L prev && !OptOps.allclose L prev)

/-- Local variables of the `while` loop: `scale`, `dd_prev`, `s`, and whether `s is g2`. -/
structure Search (F P : Type _) where
  scale : F
  ddPrev : F
  dir : List P
  isG2 : Bool

/-- Lines 529-532 and 544-547: halve the step if it already was a gradient step, then reset CG. -/
def Search.reset (v : Search F P) (g2 : List P) : Search F P :=
  { scale := if v.isG2 then FloatOps.mul v.scale FloatOps.half else v.scale
    ddPrev := FloatOps.zero, dir := g2, isG2 := true }

/-- Lines 564-592: after a decreased bound. -/
def Search.shrink (v : Search F P) (g2 : List P) : Search F P :=
  if v.isG2 then { v with scale := FloatOps.mul v.scale FloatOps.half }
  else if FloatOps.lt v.scale OptOps.threshold then
    { v with ddPrev := FloatOps.zero, dir := g2, isG2 := true }
  else { v with scale := FloatOps.mul v.scale FloatOps.half }

/-- The `while not success` loop, lines 518-594. -/
def searchLoop (env : OptEnv ν V O M F P) (keys collapsed : List (NodeKey ν)) (p g2 : List P) :
    Nat → Search F P → Py (VBState ν V O M F) (Option (Search F P × List P))
  | 0, _ => pure none
  | fuel + 1, v => fun s =>
    match addVec env p v.dir v.scale with
    | .error e => (.error e, s)
    | .ok pNew =>
      match setParameters env pNew keys s with
      | (.error _, s1) => searchLoop env keys collapsed p g2 fuel (v.reset g2) s1
      | (.ok (), s1) =>
        match getParameters env collapsed s1 with
        | .error e => (.error e, s1)
        | .ok cp =>
          match updateEach env collapsed s1 with
          | (.error _, s2) =>
            match setParameters env cp collapsed s2 with
            | (.error e, s3) => (.error e, s3)
            | (.ok (), s3) => searchLoop env keys collapsed p g2 fuel (v.reset g2) s3
          | (.ok (), s2) =>
            match computeLowerbound env.toVBEnv s2 with
            | .error e => (.error e, s2)
            | .ok L =>
              if rejects s2 L then
                match setParameters env cp collapsed s2 with
                | (.error e, s3) => (.error e, s3)
                | (.ok (), s3) => searchLoop env keys collapsed p g2 fuel (v.shrink g2) s3
              else (.ok (some (v, pNew)), s2)

/-- Lines 490-515: gradients and the search direction. -/
def direction (env : OptEnv ν V O M F P) (keys : List (NodeKey ν)) (fletcher riem : Bool)
    (v : Search F P) (s : VBState ν V O M F) : Except PyErr (Search F P × List P) := do
  let rg ← riemGradients env keys s
  let g ← if riem && !fletcher then pure rg else euclGradients env keys rg s
  let g1 := g
  let g2 := if riem then rg else g
  if fletcher then
    let dd ← dotVec env g1 g2
    let b := if OptOps.isZero v.ddPrev then FloatOps.zero else FloatOps.div dd v.ddPrev
    if OptOps.isZero b then return ({ v with ddPrev := dd, dir := g2, isG2 := true }, g2)
    else return ({ v with ddPrev := dd, dir := (← addVec env g2 v.dir b), isG2 := false }, g2)
  else return ({ v with dir := g2, isG2 := true }, g2)

/-- The `for i in range(maxiter)` loop, lines 486-603. -/
def optimizeLoop (env : OptEnv ν V O M F P) (keys collapsed : List (NodeKey ν))
    (fletcher riem : Bool) (tol : Option F) (fuel : Nat) :
    Nat → List P → Search F P → Py (VBState ν V O M F) (Option Unit)
  | 0, _, _ => pure (some ())
  | n + 1, p, v => fun s =>
    match direction env keys fletcher riem v s with
    | .error e => (.error e, s)
    | .ok (v, g2) =>
      match searchLoop env keys collapsed p g2 fuel v s with
      | (.error e, s1) => (.error e, s1)
      | (.ok none, s1) => (.ok none, s1)
      | (.ok (some (v, pNew)), s1) =>
        match endIterationStep env.toVBEnv tol s1 with
        | (.error e, s2) => (.error e, s2)
        | (.ok true, s2) => (.ok (some ()), s2)
        | (.ok false, s2) =>
          optimizeLoop env keys collapsed fletcher riem tol fuel n pNew
            { v with scale := FloatOps.mul v.scale OptOps.sqrt2 } s2

/-- `VB.optimize`, lines 470-603, for the known methods (`fletcher`: `'fletcher-reeves'`, else
`'gradient'`; the method name is only tested inside the loop). -/
def vbOptimize (env : OptEnv ν V O M F P) (keys collapsed : List (NodeKey ν)) (maxiter : Nat)
    (fletcher riem : Bool) (tol : Option F) (fuel : Nat) :
    Py (VBState ν V O M F) (Option Unit) := fun s =>
  match getParameters env keys s with
  | .error e => (.error e, s)
  | .ok p => optimizeLoop env keys collapsed fletcher riem tol fuel maxiter p
      { scale := OptOps.one, ddPrev := FloatOps.zero, dir := [], isG2 := true } s

/-! ### Pattern search -/

/-- A scalar minimiser: from the evaluations so far it chooses the next point, or it ends. -/
abbrev Minimizer (F : Type _) := List (F × F) → F ⊕ F

/-- Run a minimiser on a cost function with side effects. -/
def runMinimizer {σ : Type _} (opt : Minimizer F) (cost : F → Py σ F) :
    Nat → List (F × F) → Py σ (Option F)
  | 0, _ => pure none
  | fuel + 1, hist => fun s =>
    match opt hist with
    | .inr x => (.ok (some x), s)
    | .inl a => match cost a s with
      | (.error e, s1) => (.error e, s1)
      | (.ok c, s1) => runMinimizer opt cost fuel (hist ++ [(a, c)]) s1

/-- `cost(alpha)`, lines 636-645. -/
def patternCost (env : OptEnv ν V O M F P) (keys collapsed : List (NodeKey ν)) (p1 dp : List P)
    (alpha : F) : Py (VBState ν V O M F) F := fun s =>
  match addVec env p1 dp alpha with
  | .error e => (.error e, s)
  | .ok pNew =>
    match setParameters env pNew keys s with
    | (.error _, s1) => (.ok OptOps.inf, s1)
    | (.ok (), s1) =>
      match updateEach env collapsed s1 with
      | (.error e, s2) => (.error e, s2)
      | (.ok (), s2) =>
        match computeLowerbound env.toVBEnv s2 with
        | .error e => (.error e, s2)
        | .ok L => (.ok (OptOps.neg L), s2)

/-- `VB.pattern_search`, lines 606-662, with SciPy's minimiser as a parameter. -/
def patternSearch (env : OptEnv ν V O M F P) (keys collapsed : List (NodeKey ν))
    (opt : Minimizer F) (fuel : Nat) : Py (VBState ν V O M F) (Option Unit) := do
  updateEach env keys
  updateEach env collapsed
  let s ← Py.get
  let p0 ← Py.lift (getParameters env keys s)
  updateEach env keys
  let s ← Py.get
  let p1 ← Py.lift (getParameters env keys s)
  let dp ← Py.lift (addVec env p1 p0 (OptOps.neg OptOps.one))
  match ← runMinimizer opt (patternCost env keys collapsed p1 dp) fuel [] with
  | none => return none
  | some x => do
    let pNew ← Py.lift (addVec env p1 dp x)
    setParameters env pNew keys
    updateEach env collapsed
    let _ ← endIterationStep env.toVBEnv none
    return (some ())

end

end Verif
