import Verif.Model.Py
import Verif.Model.Utils

/-!
# Model of the inference engine `VB`, `bayespy/inference/vmp/vmp.py`

Python statements that may raise are state transformers that keep the state reached when the
exception was raised (`Py`).  Floating-point numbers are an abstract type with abstract operations
(`FloatOps`): nothing is assumed about rounding, infinities or NaN.
Time measurements (`cputime`), printing, plotting and progress bars are left out.
-/

namespace Verif

/-- A Python computation on a mutable state: an exception keeps the state reached so far. -/
def Py (σ α : Type _) := σ → Except PyErr α × σ

instance {σ : Type _} : Monad (Py σ) where
  pure a := fun s => (.ok a, s)
  bind m f := fun s => match m s with
    | (.ok a, s') => f a s'
    | (.error e, s') => (.error e, s')

/-- `raise`. -/
def Py.raise {σ α : Type _} (e : PyErr) : Py σ α := fun s => (.error e, s)

/-- Read the state. -/
def Py.get {σ : Type _} : Py σ σ := fun s => (.ok s, s)

/-- Change the state. -/
def Py.modify {σ : Type _} (f : σ → σ) : Py σ Unit := fun s => (.ok (), f s)

/-- A pure computation that may raise. -/
def Py.lift {σ α : Type _} (x : Except PyErr α) : Py σ α := fun s => (x, s)

/-- Abstract floating-point arithmetic. -/
class FloatOps (F : Type _) where
  zero : F
  nan : F
  half : F
  add : F → F → F
  sub : F → F → F
  mul : F → F → F
  div : F → F → F
  abs : F → F
  lt : F → F → Bool

/-- What is stored about a node in a checkpoint: `ExponentialFamily._save`, `expfamily.py` lines
507-521 (`phi`, `f`, `g`) and `Stochastic._save`, `stochastic.py` lines 320-329 (`u`, `observed`).
All arrays but `observed` are kept together in `data`. -/
structure NodeRec (V O : Type _) where
  data : V
  observed : O

/-- The state of a node: the saved part, its mask, and its annealing coefficient (not saved). -/
structure NodeState (V O M F : Type _) where
  data : V
  observed : O
  mask : M
  annealing : F

/-- A HDF5 file as written by `VB.save`.  `none`: the item has not been created. -/
structure H5 (V O F : Type _) where
  nodes : Option (List (String × NodeRec V O)) := none
  L : Option (List F) := none
  iter : Option Nat := none
  converged : Option Bool := none
  boundterms : Option (List (String × List F)) := none

/-- The parts of a model that do not change while the engine runs.  `update`, `contribution` and
`callback` are arbitrary (they may raise); an update may change any node's state (masks, ...). -/
structure VBEnv (ν V O M F : Type _) where
  name : ν → String
  /-- `hasattr(X, 'update') and callable(X.update)` -/
  hasUpdate : ν → Bool
  /-- `hasattr(node, '_save')`, the same nodes (the stochastic ones) have `load`/`_load`. -/
  savable : ν → Bool
  update : ν → (ν → NodeState V O M F) → Except PyErr Unit × (ν → NodeState V O M F)
  contribution : ν → (ν → NodeState V O M F) → Except PyErr F
  callback : (ν → NodeState V O M F) → Except PyErr Unit × (ν → NodeState V O M F)
  /-- The masks after `_update_mask` as a function of what is observed (see property C33). -/
  maskOf : (ν → O) → ν → M

/-- The attributes of a `VB` object, the states of the nodes, and the checkpoint file
(`autosave_filename`).  `l` is meaningful for the nodes in `model` only (the keys of the dict). -/
structure VBState (ν V O M F : Type _) where
  model : List ν
  world : ν → NodeState V O M F
  iter : Nat
  annealingChanged : Bool
  converged : Bool
  ignoreBoundChecks : Bool
  L : List F
  l : ν → List F
  tol : F
  autosaveIterations : Nat
  autosaveNodes : Option (List ν)
  file : Option (H5 V O F)

section
variable {ν V O M F : Type _} [DecidableEq ν] [FloatOps F]

/-- `VB.__init__`, `vmp.py` lines 52-108, for arguments that are nodes.  The uniqueness test of lines
101-104 is kept as it is written: it compares the number of names with the number of nodes. -/
def vbInit (env : VBEnv ν V O M F) (nodes : List ν) (tol : F) (autosaveIterations : Nat)
    (world : ν → NodeState V O M F) (file : Option (H5 V O F)) : Except PyErr (VBState ν V O M F) :=
  let model := unique nodes
  let names := model.map env.name
  if names.length ≠ model.length then .error .exception
  else .ok { model, world, iter := 0, annealingChanged := false, converged := false,
             ignoreBoundChecks := false, L := [], l := fun _ => [], tol, autosaveIterations,
             autosaveNodes := none, file }

/-- How a user refers to a node. -/
inductive NodeKey (ν : Type _) where
  | node (n : ν)
  | name (s : String)

/-- `VB.__getitem__`, `vmp.py` lines 358-364.  In the dict comprehension later nodes overwrite
earlier ones with the same name. -/
def vbGetitem (env : VBEnv ν V O M F) (model : List ν) : NodeKey ν → Except PyErr ν
  | .node n => if n ∈ model then .ok n else .error .keyError
  | .name s => match model.reverse.find? (fun n => env.name n = s) with
    | some n => .ok n
    | none => .error .keyError

/-- `a[i] = v` for a one-dimensional array and `i ≥ 0`. -/
def setItem {α : Type _} (a : List α) (i : Nat) (v : α) : Except PyErr (List α) :=
  if i < a.length then .ok (a.set i v) else .error .indexError

/-- `VB._append_iterations(iters)`, `vmp.py` lines 682-690. -/
def appendIterations (iters : Nat) (s : VBState ν V O M F) : VBState ν V O M F :=
  { s with
    L := s.L ++ List.replicate iters FloatOps.nan
    l := fun n => if n ∈ s.model then s.l n ++ List.replicate iters FloatOps.nan else s.l n }

/-- Loop of `VB.loglikelihood_lowerbound`, `vmp.py` lines 192-199. -/
def loglikLoop (env : VBEnv ν V O M F) : List ν → F → Py (VBState ν V O M F) F
  | [], L => pure L
  | n :: ns, L => do
    let s ← Py.get
    let lp ← Py.lift (env.contribution n s.world)
    let L := FloatOps.add L lp
    let a ← Py.lift (setItem (s.l n) s.iter lp)
    Py.modify fun s => { s with l := Function.update s.l n a }
    loglikLoop env ns L

/-- `VB.loglikelihood_lowerbound`, `vmp.py` lines 192-200. -/
def loglikelihoodLowerbound (env : VBEnv ν V O M F) : Py (VBState ν V O M F) F := do
  let s ← Py.get
  loglikLoop env s.model FloatOps.zero

/-- `VB.compute_lowerbound`, `vmp.py` lines 180-184. -/
def computeLowerbound (env : VBEnv ν V O M F) (s : VBState ν V O M F) : Except PyErr F :=
  s.model.foldlM (fun L n => do return FloatOps.add L (← env.contribution n s.world)) FloatOps.zero

/-! ### Saving and loading -/

/-- One write into the open file. -/
abbrev H5Step (V O F : Type _) := H5 V O F → Except PyErr (H5 V O F)

/-- `node._save(nodegroup.create_group(node.name))` and the preceding name check, `vmp.py` lines
267-272.  Creating an existing group raises `ValueError`.  (Names containing `/` are not modelled,
and the data sets of one node are written in one step.) -/
def saveNodeStep (env : VBEnv ν V O M F) (s : VBState ν V O M F) (n : ν) : H5Step V O F := fun f =>
  if env.name n = "" then .error .exception
  else if env.savable n then
    let g := f.nodes.getD []
    if (g.map (·.1)).contains (env.name n) then .error .valueError
    else .ok { f with nodes := some (g ++ [(env.name n, ⟨(s.world n).data, (s.world n).observed⟩)]) }
  else .ok f

/-- `misc.write_to_hdf5(boundgroup, self.l[node], node.name)`, `vmp.py` line 283. -/
def saveBoundStep (env : VBEnv ν V O M F) (s : VBState ν V O M F) (n : ν) : H5Step V O F := fun f =>
  let g := f.boundterms.getD []
  if (g.map (·.1)).contains (env.name n) then .error .valueError
  else .ok { f with boundterms := some (g ++ [(env.name n, s.l n)]) }

/-- All writes of `VB.save` after the file has been opened, `vmp.py` lines 264-283, in order.
`cputime`, `callback_output` and `user_data` are left out. -/
def saveSteps (env : VBEnv ν V O M F) (s : VBState ν V O M F) (nodes : List ν) :
    List (H5Step V O F) :=
  [fun f => .ok { f with nodes := some [] }]
  ++ nodes.map (saveNodeStep env s)
  ++ [fun f => .ok { f with L := some s.L },
      fun f => .ok { f with iter := some s.iter },
      fun f => .ok { f with converged := some s.converged },
      fun f => .ok { f with boundterms := some [] }]
  ++ nodes.map (saveBoundStep env s)

/-- Run a list of writes; the file keeps what was written before an exception. -/
def runSteps : List (H5Step V O F) → Py (H5 V O F) Unit
  | [] => pure ()
  | st :: sts => fun f => match st f with
    | .ok f' => runSteps sts f'
    | .error e => (.error e, f)

/-- `VB.save(*nodes, filename)`, `vmp.py` lines 237-292: the file is opened with mode `'w'`, which
empties it, before anything is checked or written.  `fuel` writes are done before the process dies;
`none`: it does not die. -/
def vbSaveCrash (env : VBEnv ν V O M F) (crash : Option Nat) (keys : List (NodeKey ν)) :
    Py (VBState ν V O M F) Unit := fun s =>
  let nodes := if keys.length = 0 then .ok s.model else keys.mapM (vbGetitem env s.model)
  match nodes with
  | .error e => (.error e, s)
  | .ok nodes =>
    let steps := saveSteps env s nodes
    let steps := match crash with
      | none => steps
      | some k => steps.take k
    let r := runSteps steps {}
    (r.1, { s with file := some r.2 })

/-- `VB.save` without a crash. -/
def vbSave (env : VBEnv ν V O M F) (keys : List (NodeKey ν)) : Py (VBState ν V O M F) Unit :=
  vbSaveCrash env none keys

/-- `Stochastic._load`/`ExponentialFamily._load`, `stochastic.py` lines 341-354, `expfamily.py` lines
524-535: the saved arrays replace the old ones; masks are propagated (the test whether `observed`
changed only avoids a recomputation). -/
def loadNode [DecidableEq O] (env : VBEnv ν V O M F) (n : ν) (r : NodeRec V O)
    (w : ν → NodeState V O M F) : ν → NodeState V O M F :=
  let old := (w n).observed
  let w := Function.update w n { w n with data := r.data, observed := r.observed }
  if old ≠ r.observed then
    fun m => { w m with mask := env.maskOf (fun k => (w k).observed) m }
  else w

/-- Item of a group, `KeyError` if there is none. -/
def h5Item {α : Type _} (g : Option (List (String × α))) (name : String) : Except PyErr α :=
  match g with
  | none => .error .keyError
  | some g => match g.find? (fun p => p.1 = name) with
    | some p => .ok p.2
    | none => .error .keyError

/-- Loop of `VB.load` over the nodes, `vmp.py` lines 327-339 (`KeyError` becomes `Exception`). -/
def loadNodesLoop [DecidableEq O] (env : VBEnv ν V O M F) (f : H5 V O F) :
    List ν → Py (VBState ν V O M F) Unit
  | [] => pure ()
  | n :: ns => do
    if env.name n = "" then Py.raise .exception
    else
      if env.savable n then
        match h5Item f.nodes (env.name n) with
        | .error _ => Py.raise .exception
        | .ok r => Py.modify fun s => { s with world := loadNode env n r s.world }
      loadNodesLoop env f ns

/-- Loop of `VB.load` over the bound terms, `vmp.py` lines 346-347. -/
def loadBoundsLoop (env : VBEnv ν V O M F) (f : H5 V O F) :
    List ν → Py (VBState ν V O M F) Unit
  | [] => pure ()
  | n :: ns => do
    let a ← Py.lift (h5Item f.boundterms (env.name n))
    Py.modify fun s => { s with l := Function.update s.l n a }
    loadBoundsLoop env f ns

/-- `h5f[name][...]` for a data set of the root group. -/
def h5Data {α : Type _} : Option α → Except PyErr α
  | some a => .ok a
  | none => .error .keyError

/-- `VB.load(*nodes, filename, nodes_only=False)`, `vmp.py` lines 309-356; a missing file raises
(`OSError`, here `exception`). -/
def vbLoad [DecidableEq O] (env : VBEnv ν V O M F) (keys : List (NodeKey ν)) :
    Py (VBState ν V O M F) Unit := do
  let s ← Py.get
  match s.file with
  | none => Py.raise .exception
  | some f => do
    let nodes ← Py.lift (if keys.length = 0 then .ok s.model else keys.mapM (vbGetitem env s.model))
    loadNodesLoop env f nodes
    let L ← Py.lift (h5Data f.L)
    Py.modify fun s => { s with L := L }
    let it ← Py.lift (h5Data f.iter)
    Py.modify fun s => { s with iter := it }
    let c ← Py.lift (h5Data f.converged)
    Py.modify fun s => { s with converged := c }
    loadBoundsLoop env f nodes

/-! ### Iterations -/

/-- The convergence test, `vmp.py` lines 728-746. -/
def convergenceTest (L0 L1 tol : F) : Bool :=
  let div := FloatOps.mul FloatOps.half (FloatOps.add (FloatOps.abs L0) (FloatOps.abs L1))
  FloatOps.lt (FloatOps.div (FloatOps.sub L1 L0) div) tol

/-- `callback()`, `vmp.py` lines 701-709; the collected outputs are left out. -/
def runCallback (env : VBEnv ν V O M F) : Py (VBState ν V O M F) Unit := fun s =>
  let r := env.callback s.world
  (r.1, { s with world := r.2 })

/-- The auto-save of `_end_iteration_step`, `vmp.py` lines 749-757 (before `iter` is increased). -/
def autosave (env : VBEnv ν V O M F) : Py (VBState ν V O M F) Unit := do
  let s ← Py.get
  if s.autosaveIterations > 0 ∧ (s.iter + 1) % s.autosaveIterations = 0 then
    match s.autosaveNodes with
    | some ns => vbSave env (ns.map .node)
    | none => vbSave env []
  else pure ()

/-- `VB._end_iteration_step`, `vmp.py` lines 693-764 (the warning about a decreasing bound is
left out). -/
def endIterationStep (env : VBEnv ν V O M F) (tol : Option F) : Py (VBState ν V O M F) Bool := do
  Py.modify fun s => if s.iter ≥ s.L.length then appendIterations 100 s else s
  runCallback env
  let L ← loglikelihoodLowerbound env
  let s ← Py.get
  let a ← Py.lift (setItem s.L s.iter L)
  Py.modify fun s => { s with L := a }
  Py.modify fun s => { s with converged := false }
  let s ← Py.get
  if s.ignoreBoundChecks = false ∧ s.annealingChanged = false ∧ s.iter > 0 then
    let L0 := s.L.getD (s.iter - 1) FloatOps.nan
    let L1 := s.L.getD s.iter FloatOps.nan
    if convergenceTest L0 L1 (tol.getD s.tol) then
      Py.modify fun s => { s with converged := true }
  autosave env
  Py.modify fun s => { s with annealingChanged := false }
  Py.modify fun s => { s with iter := s.iter + 1 }
  let s ← Py.get
  return s.converged

/-- `if hasattr(X, 'update') and callable(X.update): X.update()`, `vmp.py` lines 158-159. -/
def runUpdate (env : VBEnv ν V O M F) (n : ν) : Py (VBState ν V O M F) Unit := fun s =>
  if env.hasUpdate n then
    let r := env.update n s.world
    (r.1, { s with world := r.2 })
  else (.ok (), s)

/-- The loop over the nodes in `VB.update`, `vmp.py` lines 156-161. -/
def updateNodes (env : VBEnv ν V O M F) : List (NodeKey ν) → Py (VBState ν V O M F) Unit
  | [] => pure ()
  | k :: ks => do
    let s ← Py.get
    let n ← Py.lift (vbGetitem env s.model k)
    runUpdate env n
    updateNodes env ks

/-- One pass of the `while` loop of `VB.update`, `vmp.py` lines 152-170. -/
def updateIteration (env : VBEnv ν V O M F) (keys : List (NodeKey ν)) (tol : Option F) :
    Py (VBState ν V O M F) Bool := do
  updateNodes env keys
  endIterationStep env tol

/-- The `while` loop of `VB.update` for at most `n` passes.  The result tells whether the loop was
left by `return` (converged). -/
def updateLoop (env : VBEnv ν V O M F) (keys : List (NodeKey ν)) (tol : Option F) :
    Nat → Py (VBState ν V O M F) Bool
  | 0 => pure false
  | n + 1 => do
    if ← updateIteration env keys tol then return true
    else updateLoop env keys tol n

/-- `VB.update(*nodes, repeat=n, tol)`, `vmp.py` lines 132-172.  (For `repeat=None` the loop has no
bound: its behaviour is `updateLoop` for all numbers of passes.) -/
def vbUpdate (env : VBEnv ν V O M F) (keys : List (NodeKey ν)) (rep : Nat) (tol : Option F) :
    Py (VBState ν V O M F) Unit := do
  let s ← Py.get
  let keys := if keys.length = 0 then s.model.map .node else keys
  let _ ← updateLoop env keys tol rep
  return ()

/-- `VB.set_annealing`, `vmp.py` lines 665-679. -/
def setAnnealing (a : F) : Py (VBState ν V O M F) Unit := Py.modify fun s =>
  { s with
    world := fun n => if n ∈ s.model then { s.world n with annealing := a } else s.world n
    annealingChanged := true
    converged := false }

end

end Verif
