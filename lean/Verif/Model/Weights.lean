import Verif.Spec.Weights
import Verif.Model.PlateMaps
import Verif.Model.Message
import Verif.Model.Mixture
import Verif.Model.Support

/-!
# Model of the masks which nodes give to their parents

Files are in `bayespy/inference/vmp/nodes`.  `compute_weights_to_parent` maps the mask of a node (or, in a mixture, the
probabilities of the clusters) to the plates of a parent.  The functions below take any elements; where the code adds up
elements, the test `!= 0` of the callers is included and the elements are Booleans.
-/

namespace Verif

/-- `compute_weights_to_parent(index, weights)` of a distribution -/
abbrev WeightMap (α : Type _) := Nat → Arr α → Except PyErr (Arr α)

/-- `Distribution.compute_weights_to_parent`, `stochastic.py` lines 40-46: the default -/
def idWeights {α : Type _} : WeightMap α := fun _ w => .ok w

/-- `GaussianARDDistribution.compute_weights_to_parent`, `gaussian.py` lines 640-646 -/
def ardWeights {α : Type _} (ndim : Nat) : WeightMap α := fun index w =>
  if index ≠ 0 then .error .indexError else .ok (addTrailingAxes w ndim)

/-- `GaussianMarkovChainDistribution.compute_weights_to_parent`, `gaussian_markov_chain.py` lines 530-539 -/
def gmcWeights {α : Type _} : WeightMap α := fun index w =>
  match index with
  | 0 => .ok w
  | 1 => .ok (addTrailingAxes w 2)
  | 2 => .ok (addTrailingAxes w 1)
  | _ => .error .valueError

/-- `VaryingGaussianMarkovChainDistribution.compute_weights_to_parent`, `gaussian_markov_chain.py` lines 1020-1036 -/
def varyingWeights {α : Type _} : WeightMap α := fun index w =>
  match index with
  | 0 => .ok w
  | 1 => .ok w
  | 2 => .ok (addTrailingAxes w 1)
  | 3 => .ok (addTrailingAxes w 1)
  | 4 => .ok (addTrailingAxes w 2)
  | 5 => .ok w
  | _ => .error .valueError

/-- `SwitchingGaussianMarkovChainDistribution.compute_weights_to_parent`, `gaussian_markov_chain.py` lines 1567-1580 -/
def switchingWeights {α : Type _} : WeightMap α := fun index w =>
  match index with
  | 0 => .ok w
  | 1 => .ok w
  | 2 => .ok (addTrailingAxes w 2)
  | 3 => .ok (addTrailingAxes w 1)
  | 4 => .ok (addTrailingAxes w 2)
  | _ => .error .valueError

/-- `CategoricalMarkovChainDistribution.compute_weights_to_parent`, `categorical_markov_chain.py` lines 106-117 -/
def cmcWeights {α : Type _} : WeightMap α := fun index w =>
  match index with
  | 0 => .ok w
  | 1 => .ok (addTrailingAxes w 2)
  | _ => .error .valueError

/-- `MixtureDistribution.compute_weights_to_parent`, `mixture.py` lines 163-177, with `cluster_plate = -(g + 1)`; the axis
is inserted as in `Gate` -/
def mixtureWeights {α : Type _} (raw : WeightMap α) (g : Nat) : WeightMap α := fun index w =>
  match index with
  | 0 => .ok w
  | i + 1 => do raw i (← gateWeightsX g w)

/-- `_GammaToDiagonalWishart`, `gamma.py` lines 371-380: the last plate of the parent becomes the diagonal -/
def diagWishartMap (D : Nat) : ParentMap where
  toParent _ plates := .ok (plates ++ [D])
  fromParent _ plates := .ok (getPlates 1 plates)

def diagWishartWeights {α : Type _} : WeightMap α := fun _ w => .ok (addTrailingAxes w 1)

/-- the elements of a mask as numbers -/
def maskNat (w : Arr Bool) : Arr Nat := w.map fun b => if b then 1 else 0

/-- the test `!= 0` -/
def nonzero (w : Arr Nat) : Arr Bool := w.map fun x => x != 0

/-- `_MarkovChainToGaussian._compute_weights_to_parent`, `gaussian_markov_chain.py` lines 2053-2057, and
`CategoricalMarkovChainToCategorical._compute_weights_to_parent`, `categorical_markov_chain.py` lines 410-419 (which does
not test the number of axes; `np.sum` of an array without axes accepts `axis=-1` and returns the element) -/
def unchainWeights : WeightMap Bool := fun _ w => do
  let n := maskNat w
  let n ← if n.shape.length ≥ 1 then npSumLast n 1 else .ok n
  return nonzero n

/-- `GaussianToGaussian`, `gaussian.py` lines 147-158, of a variable whose shape starts with `head`, the axes which become
plates -/
def toGaussianMap (head : List Nat) : ParentMap where
  toParent index plates :=
    if index ≠ 0 then .error .indexError
    else if head.length = 0 then .ok plates else .ok (getPlates head.length plates)
  fromParent index plates :=
    if index ≠ 0 then .error .indexError
    else if head.length = 0 then .ok plates else .ok (plates ++ head)

/-- `GaussianToGaussian.compute_weights_to_parent`, `gaussian.py` lines 131-139, called by `NodeConverter`,
`converters.py` lines 30-33 -/
def toGaussianWeights (head : List Nat) : WeightMap Bool := fun index w =>
  if index ≠ 0 then .error .indexError
  else if head.length = 0 then .ok w
  else do
    let n ← npMul (maskNat w) ⟨head, fun _ => 1⟩
    return nonzero (← npSumLast n head.length)

/-- `Node._mask_to_parent(index)`, `node.py` lines 492-526, with the weights and the plates of the node -/
def nodeMaskToParent (map : ParentMap) (weights : WeightMap Bool) (plates parentPlates : List Nat) (index : Nat)
    (mask : Arr Bool) : Except PyErr (Arr Bool) := do
  let w ← weights index mask
  let q ← map.toParent index plates
  maskToParent q parentPlates w

/-- The maps of plates of the distributions -/
def Spec.Dist.map : Spec.Dist → ParentMap
  | .plain => idMap
  | .ard shape => ardMap shape
  | .gmc N D => gmcMap N D
  | .varying N D => varyingMap N D
  | .switching N D K => switchingMap N D K
  | .cmc N K => cmcMap N K
  | .diagWishart D => diagWishartMap D
  | .mixture raw g K => mixtureMap raw.map g K

/-- The maps of masks of the distributions -/
def Spec.Dist.weights : Spec.Dist → WeightMap Bool
  | .plain => idWeights
  | .ard shape => ardWeights shape.length
  | .gmc _ _ => gmcWeights
  | .varying _ _ => varyingWeights
  | .switching _ _ _ => switchingWeights
  | .cmc _ _ => cmcWeights
  | .diagWishart _ => diagWishartWeights
  | .mixture raw g _ => mixtureWeights raw.weights g

end Verif
