import Mathlib.Data.List.Dedup
import Mathlib.Order.Lattice
import Mathlib.Order.BoundedOrder.Basic
import Mathlib.Logic.Function.Basic
import Verif.Model.Engine
import Verif.Model.Shape

/-!
# Model of the graph of nodes, `bayespy/inference/vmp/nodes/node.py` and sub-classes

A node is a number, in the order of construction.  Sets of children are lists without repetitions
(the iteration order of a Python set is arbitrary; no theorem depends on the order of the list).
Recursive calls go from a node to its parents, which are older; they get a number of allowed nested
calls (`fuel`), which is chosen large enough where they are started.
Masks are elements of a join-semilattice `M` (`⊔` is `np.logical_or`, `⊥` is `np.array(False)`); the
mapping `_mask_to_parent` is treated in `Props/Masks.lean` for arrays.
-/

namespace Verif

/-- Kinds of nodes.  `concatenate` is `nodes/concatenate.py`, a deterministic node that allows
dependent parents. -/
inductive NodeKind where
  | stochastic
  | deterministic
  | concatenate
  | constant
  deriving DecidableEq, Repr

/-- `isinstance(node, Deterministic)`. -/
def NodeKind.isDet : NodeKind → Bool
  | .deterministic | .concatenate => true
  | _ => false

/-- All nodes constructed so far: the numbers below `size`. -/
structure Graph (M : Type _) where
  size : Nat
  kind : Nat → NodeKind
  parents : Nat → List Nat
  plates : Nat → List Nat
  /-- `node._mask_to_parent(index)` as a function of `node.mask` -/
  toParent : Nat → Nat → M → M
  /-- `node.children` -/
  children : Nat → List (Nat × Nat)
  mask : Nat → M
  observed : Nat → M

section
variable {M : Type _}

/-- `set.add`. -/
def setAdd {α : Type _} [DecidableEq α] (x : α) (l : List α) : List α :=
  if x ∈ l then l else l ++ [x]

/-- `Node._add_child`, `node.py` lines 426-438, and `Deterministic._add_child`, `deterministic.py`
lines 99-125. -/
def addChild : Nat → Nat → Nat × Nat → Graph M → Graph M
  | 0, _, _, g => g
  | fuel + 1, p, ci, g =>
    let g := { g with children := Function.update g.children p (setAdd ci (g.children p)) }
    if (g.kind p).isDet then
      (g.parents p).zipIdx.foldl (fun g q => addChild fuel q.1 (p, q.2) g) g
    else g

/-- Run an operation for each element. -/
def forEach {σ α : Type _} (f : α → Py σ Unit) : List α → Py σ Unit
  | [] => pure ()
  | a :: l => do
    f a
    forEach f l

/-- `Node._remove_child`, `node.py` lines 440-444, and `Deterministic._remove_child`,
`deterministic.py` lines 127-143. -/
def removeChild : Nat → Nat → Nat × Nat → Py (Graph M) Unit
  | 0, _, _ => Py.raise .exception
  | fuel + 1, p, ci => fun g =>
    if ci ∈ g.children p then
      let g := { g with children := Function.update g.children p ((g.children p).erase ci) }
      if (g.kind p).isDet ∧ (g.children p).length = 0 then
        forEach (fun q : Nat × Nat => removeChild fuel q.1 (p, q.2)) (g.parents p).zipIdx g
      else (.ok (), g)
    else (.error .keyError, g)

/-- `_get_id_list`: `stochastic.py` lines 142-159, `deterministic.py` lines 41-60, `constant.py` lines
41-57, `concatenate.py` lines 80-84 (`list(set(...))`).  The identifier of a stochastic node is its
number. -/
def idList (g : Graph M) : Nat → Nat → List Nat
  | 0, _ => []
  | fuel + 1, n => match g.kind n with
    | .stochastic => [n]
    | .constant => []
    | .deterministic => (g.parents n).flatMap (idList g fuel)
    | .concatenate => ((g.parents n).flatMap (idList g fuel)).dedup

/-- What is given to a constructor.  `platesFrom` is `_compute_plates_from_parent`. -/
structure NodeSpec (M : Type _) where
  kind : NodeKind
  parents : List Nat
  plates : Option (List Nat)
  platesFrom : Nat → List Nat → List Nat
  toParent : Nat → M → M

/-- The record of the new node, before its parents are informed. -/
def newNode [Bot M] (nd : NodeSpec M) (g : Graph M) : Graph M :=
  { size := g.size + 1
    kind := Function.update g.kind g.size nd.kind
    parents := Function.update g.parents g.size nd.parents
    plates := g.plates
    toParent := Function.update g.toParent g.size nd.toParent
    children := Function.update g.children g.size []
    mask := Function.update g.mask g.size ⊥
    observed := Function.update g.observed g.size ⊥ }

/-- The parents are informed (stochastic nodes only, deterministic ones pass `notify_parents=False`,
`deterministic.py` line 39). -/
def notifyParents (nd : NodeSpec M) (n : Nat) (g : Graph M) : Graph M :=
  if nd.kind = .stochastic then
    nd.parents.zipIdx.foldl (fun g q => addChild n q.1 (n, q.2) g) g
  else g

/-- `Node.__init__`, `node.py` lines 255-301: independence of the parents is tested, the parents are
informed, and then the plates are resolved.  If that fails, the half-constructed node stays
registered.  (Plate multipliers and the further initialisation are left out.  In the code a node gets
its empty set of children after its parents were informed; its parents are other nodes.) -/
def construct [Bot M] (nd : NodeSpec M) : Py (Graph M) Nat := fun g =>
  let ids := nd.parents.flatMap fun p => idList g g.size p
  if nd.kind ≠ .concatenate ∧ ids.length ≠ ids.dedup.length then (.error .valueError, g)
  else
    let g' := notifyParents nd g.size (newNode nd g)
    match totalPlates nd.plates
        (nd.parents.zipIdx.map fun q => nd.platesFrom q.2 (g.plates q.1)) with
    | .error e => (.error e, g')
    | .ok pl => (.ok g.size, { g' with plates := Function.update g.plates g.size pl })

/-- The loop over the children in `Node.delete`, `node.py` lines 705-706: Python raises
`RuntimeError` when a set has changed its size since the iteration began. -/
def deleteLoop (del : Nat → Py (Graph M) Unit) (n size : Nat) :
    List (Nat × Nat) → Py (Graph M) Unit
  | [] => fun g =>
    if (g.children n).length ≠ size then (.error .runtimeError, g) else (.ok (), g)
  | (c, _) :: cs => fun g =>
    if (g.children n).length ≠ size then (.error .runtimeError, g)
    else match del c g with
      | (.error e, g) => (.error e, g)
      | (.ok (), g) => deleteLoop del n size cs g

/-- `Node.delete`, `node.py` lines 699-706. -/
def delete : Nat → Nat → Py (Graph M) Unit
  | 0, _ => Py.raise .exception
  | fuel + 1, n => do
    let g ← Py.get
    forEach (fun q : Nat × Nat => removeChild g.size q.1 (n, q.2)) (g.parents n).zipIdx
    let g ← Py.get
    deleteLoop (delete fuel) n (g.children n).length (g.children n)

/-- `get_pdf_nodes` of the children, `node.py` lines 304-313, `stochastic.py` lines 133-139: the
stochastic nodes whose messages reach `n` (also the recursion of `_message_from_children`, `node.py`
lines 657-688, with `Deterministic._get_message_and_mask_to_parent`). -/
def messageSources (g : Graph M) : Nat → Nat → List Nat
  | 0, _ => []
  | fuel + 1, n => (g.children n).flatMap fun ci =>
    if (g.kind ci.1).isDet then messageSources g fuel ci.1 else [ci.1]

/-! ### Masks -/

variable [SemilatticeSup M] [OrderBot M]

/-- The new mask of a node: `Node._update_mask`, `node.py` lines 457-463, with `Node._set_mask`, lines
452-455, or `Stochastic._set_mask`, `stochastic.py` lines 187-188. -/
def localMask (g : Graph M) (n : Nat) : M :=
  let m := (g.children n).foldl (fun m ci => m ⊔ g.toParent ci.1 ci.2 (g.mask ci.1)) ⊥
  if g.kind n = .stochastic then m ⊔ g.observed n else m

/-- `Node._update_mask`, `node.py` lines 457-475. -/
def updateMask : Nat → Nat → Graph M → Graph M
  | 0, _, g => g
  | fuel + 1, n, g =>
    let g := { g with mask := Function.update g.mask n (localMask g n) }
    (g.parents n).foldl (fun g p => updateMask fuel p g) g

/-- The end of `ExponentialFamily.observe`, `expfamily.py` lines 396-398; with `⊥`,
`Stochastic.unobserve`, `stochastic.py` lines 291-294. -/
def setObserved (n : Nat) (m : M) (g : Graph M) : Graph M :=
  updateMask g.size n { g with observed := Function.update g.observed n m }

end

end Verif
