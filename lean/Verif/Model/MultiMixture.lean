import Verif.Model.Mixture
import Verif.Model.Utils

/-!
# Model of `MultiMixture`, `bayespy/inference/vmp/nodes/mixture.py` lines 548-566

The arguments that it gives to `Mixture`, the nested distributions which `Mixture._constructor` builds from them, and the formulas of these
(`Model/Mixture`) with `cluster_plate = -1`.  A categorical variable is represented by its moments, an array with the clusters on the last
axis.  As in `Model/Mixture`, the formulas of the mixed distribution are arguments.
-/

namespace Verif
open Spec

/-- A positional argument: a node (or array), the class `Mixture`, or the class of the mixed distribution -/
inductive MixArg (N : Type) where
  | node (x : N)
  | mixtureClass
  | mixedClass

/-- Lines 559-560, `theta[(Ellipsis,) + i*(None,)]` for `(i, theta)` in `enumerate(thetas)`, from `i` on -/
def addAxesFrom {N : Type} (addAxes : Nat → N → N) : Nat → List N → List N
  | _, [] => []
  | i, t :: ts => addAxes i t :: addAxesFrom addAxes (i + 1) ts

/-- Lines 561-565, where `mixture_args` are a class and its parameters -/
def multiMixtureArgs {N : Type} (addAxes : Nat → N → N) (thetas params : List N) : List (MixArg N) :=
  let ts := (addAxesFrom addAxes 0 thetas).map MixArg.node
  ts.take 1 ++ zipperMerge [List.replicate (thetas.length - 1) MixArg.mixtureClass, ts.drop 1] ++ MixArg.mixedClass :: params.map MixArg.node

/-- Nested distributions -/
inductive MixNest (N : Type) where
  | mixed (params : List N)
  | mixture (z : N) (inner : MixNest N)

/-- `node_class._constructor` of the mixed distribution with nodes as arguments -/
def mixedConstructor {N : Type} : List (MixArg N) → Except PyErr (List N)
  | [] => .ok []
  | .node x :: as => do return x :: (← mixedConstructor as)
  | _ :: _ => .error .typeError

/-- `Mixture._constructor(z, node_class, *args)`, lines 436-487: the distributions -/
def nestConstructor {N : Type} : List (MixArg N) → Except PyErr (MixNest N)
  | .node z :: .mixtureClass :: as => do return .mixture z (← nestConstructor as)
  | .node z :: .mixedClass :: as => do return .mixture z (.mixed (← mixedConstructor as))
  | _ => .error .typeError

/-- The moments of `theta[(Ellipsis,) + i*(None,)]`: `i` unit plates after the others, the clusters stay last -/
def addUnitPlates {α : Type _} (i : Nat) (z : Arr α) : Arr α :=
  { shape := z.shape.take (z.shape.length - 1) ++ List.replicate i 1 ++ z.shape.drop (z.shape.length - 1)
    get := fun c => z.get fun k => if k < 1 then c k else c (k + i) }

section
variable {α : Type _} [CommSemiring α] [DecidableEq α]

/-- `compute_phi_from_parents`; `Phi` is that of the mixed distribution -/
def nestPhi (nd : Nat) (Phi : Arr α) : MixNest (Arr α) → Except PyErr (Arr α)
  | .mixed _ => .ok Phi
  | .mixture z n => do mixPhi 0 nd z (← nestPhi nd Phi n)

/-- `compute_cgf_from_parents` -/
def nestCgf (cgf : Arr α) : MixNest (Arr α) → Except PyErr (Arr α)
  | .mixed _ => .ok cgf
  | .mixture z n => do mixCgf 0 z (← nestCgf cgf n)

/-- `compute_message_to_parent` for the categorical variable number `j`: for `j = 0` the message to the selector, otherwise the message of the
inner distribution is weighed.  `compute_weights_to_parent` of the inner mixtures adds an axis to the weights for each of them. -/
def nestMessage (cgf : Arr α) : Nat → List (Nat × Arr α × Arr α) → MixNest (Arr α) → Except PyErr (Arr α)
  | _, _, .mixed _ => .error .indexError
  | 0, ts, .mixture _ n => do
    let c ← nestCgf cgf n
    let ts ← ts.mapM fun t => do return (t.1, t.2.1, ← nestPhi t.1 t.2.2 n)
    mixMessageZ 0 c ts
  | j + 1, ts, .mixture z n => do
    let ts ← ts.mapM fun t => do return (t.1, ← mixUSelf 0 t.1 t.2.1, t.2.2)
    let m ← nestMessage cgf j ts n
    mixMessageParam 0 j 1 z m

/-- How many mixtures there are inside -/
def MixNest.depth {N : Type} : MixNest N → Nat
  | .mixed _ => 0
  | .mixture _ n => n.depth + 1

/-- `compute_message_to_parent` for a parameter of the mixed distribution; `m` is the message of the latter, `e` as in `mixMessageParam` -/
def nestMessageParam (e nd : Nat) (m : Arr α) : MixNest (Arr α) → Except PyErr (Arr α)
  | .mixed _ => .ok m
  | .mixture z n => do mixMessageParam 0 (n.depth + e) nd z (← nestMessageParam e nd m n)

end

end Verif
