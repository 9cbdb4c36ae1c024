import Verif.Model.Shape
import Verif.Model.SumMultiply
import Verif.Model.Gate

/-!
# Model of the plate maps of the distributions and of the construction of the plates of a node

`plates[:-k]` is `getPlates k plates` (for `k ≥ 1`).  Files are in `bayespy/inference/vmp/nodes`.  The maps
take the index of the parent; an invalid index raises.

Simplifications: of the constructors only the part about plates is modelled.  The checks on the variable
dimensions of the parents (`dims`) are taken to succeed, the dimensionality `D` and the number of clusters `K`
are read off these dimensions and are given here as numbers.  Lengths `n` of chains are positive integers.
-/

namespace Verif

/-- `plates_to_parent` and `plates_from_parent` of a distribution. -/
structure ParentMap where
  toParent : Nat → List Nat → Except PyErr (List Nat)
  fromParent : Nat → List Nat → Except PyErr (List Nat)

/-- `Distribution.plates_to_parent` and `plates_from_parent`, `stochastic.py` lines 48-64: the default. -/
def idMap : ParentMap where
  toParent _ plates := .ok plates
  fromParent _ plates := .ok plates

/-- `GaussianARDDistribution`, `gaussian.py` lines 744-769. -/
def ardMap (shape : List Nat) : ParentMap where
  toParent index plates := if index ≠ 0 then .error .indexError else .ok (plates ++ shape)
  fromParent index plates :=
    if index ≠ 0 then .error .indexError
    else if shape.length = 0 then .ok plates else .ok (getPlates shape.length plates)

/-- `GaussianMarkovChainDistribution`, `gaussian_markov_chain.py` lines 660-706. -/
def gmcMap (N D : Nat) : ParentMap where
  toParent index plates :=
    match index with
    | 0 => .ok plates
    | 1 => .ok (plates ++ [N - 1, D])
    | 2 => .ok (plates ++ [N - 1])
    | _ => .error .valueError
  fromParent index plates :=
    match index with
    | 0 => .ok plates
    | 1 => .ok (getPlates 2 plates)
    | 2 => .ok (getPlates 1 plates)
    | _ => .error .valueError

/-- `VaryingGaussianMarkovChainDistribution`, `gaussian_markov_chain.py` lines 1135-1195. -/
def varyingMap (N D : Nat) : ParentMap where
  toParent index plates :=
    match index with
    | 0 => .ok plates
    | 1 => .ok plates
    | 2 => .ok (plates ++ [D])
    | 3 => .ok (plates ++ [N - 1])
    | 4 => .ok (plates ++ [N - 1, D])
    | _ => .error .valueError
  fromParent index plates :=
    match index with
    | 0 => .ok plates
    | 1 => .ok plates
    | 2 => .ok (getPlates 1 plates)
    | 3 => .ok (getPlates 1 plates)
    | 4 => .ok (getPlates 2 plates)
    | _ => .error .valueError

/-- `SwitchingGaussianMarkovChainDistribution`, `gaussian_markov_chain.py` lines 1677-1738. -/
def switchingMap (N D K : Nat) : ParentMap where
  toParent index plates :=
    match index with
    | 0 => .ok plates
    | 1 => .ok plates
    | 2 => .ok (plates ++ [K, D])
    | 3 => .ok (plates ++ [N - 1])
    | 4 => .ok (plates ++ [N - 1, D])
    | _ => .error .valueError
  fromParent index plates :=
    match index with
    | 0 => .ok plates
    | 1 => .ok plates
    | 2 => .ok (getPlates 2 plates)
    | 3 => .ok (getPlates 1 plates)
    | 4 => .ok (getPlates 2 plates)
    | _ => .error .valueError

/-- `CategoricalMarkovChainDistribution`, `categorical_markov_chain.py` lines 149-175. -/
def cmcMap (N K : Nat) : ParentMap where
  toParent index plates :=
    match index with
    | 0 => .ok plates
    | 1 => .ok (plates ++ [N - 1, K])
    | _ => .error .valueError
  fromParent index plates :=
    match index with
    | 0 => .ok plates
    | 1 => .ok (getPlates 2 plates)
    | _ => .error .valueError

/-- `MixtureDistribution`, `mixture.py` lines 303-342, with `cluster_plate = -(g + 1)`.  Inserting and popping the
cluster plate is the code of `Gate` word for word. -/
def mixtureMap (raw : ParentMap) (g K : Nat) : ParentMap where
  toParent index plates :=
    match index with
    | 0 => .ok plates
    | i + 1 => raw.toParent i (gatePlatesToX g K plates)
  fromParent index plates :=
    match index with
    | 0 => .ok plates
    | i + 1 => do return gatePlatesFromX g (← raw.fromParent i plates)

/-- `Gate`, `gate.py` lines 185-221, with `gated_plate = -(g + 1)`. -/
def gateMap (g K : Nat) : ParentMap where
  toParent index plates :=
    match index with
    | 0 => .ok plates
    | 1 => .ok (gatePlatesToX g K plates)
    | _ => .error .valueError
  fromParent index plates :=
    match index with
    | 0 => .ok plates
    | 1 => .ok (gatePlatesFromX g plates)
    | _ => .error .valueError

/-- `_MarkovChainToGaussian`, `gaussian_markov_chain.py` lines 2007-2033, and
`CategoricalMarkovChainToCategorical`, `categorical_markov_chain.py` lines 422-433; `N` is the length of the chain
of the parent. -/
def unchainMap (N : Nat) : ParentMap where
  toParent index plates := if index ≠ 0 then .error .valueError else .ok (getPlates 1 plates)
  fromParent index plates := if index ≠ 0 then .error .valueError else .ok (plates ++ [N])

/-- What `_constructor` returns, as far as plates are concerned: the plates of the parents, the plates of the
node and the maps. -/
structure Constructed where
  parents : List (List Nat)
  plates : List Nat
  map : ParentMap

/-- `[self._plates_from_parent(index) for index in range(len(self.parents))]`, `node.py` lines 278-279. -/
def platesFromParents (map : ParentMap) (parents : List (List Nat)) : Except PyErr (List (List Nat)) :=
  parents.zipIdx.mapM fun p => map.fromParent p.2 p.1

/-- `useconstructor`, `expfamily.py` lines 74-92, followed by lines 277-286 of `Node.__init__`, `node.py`.  The
plates of the node are those of the constructor; `Node.__init__` computes the total plates again from all parents
and throws the result away. -/
def buildStochastic (plates : Option (List Nat)) (c : Constructed) : Except PyErr Constructed := do
  let parentPlates ← platesFromParents c.map c.parents
  let _ ← totalPlates plates parentPlates
  return c

/-- Lines 277-286 of `Node.__init__`, `node.py`, for a deterministic node: `self.plates` is `None` before. -/
def buildDeterministic (plates : Option (List Nat)) (map : ParentMap) (parents : List (List Nat)) :
    Except PyErr Constructed := do
  let parentPlates ← platesFromParents map parents
  let plates ← totalPlates plates parentPlates
  return ⟨parents, plates, map⟩

/-- `ExponentialFamily._constructor`, `expfamily.py` lines 143-168, of the distributions with the default maps
(`Gaussian`, `Gamma`, `Wishart`, `Dirichlet`, `Bernoulli`, `Beta`, `Binomial`, `Categorical`, `Multinomial`,
`Poisson`, `Exponential`, `GaussianGamma`, `GaussianWishart`; those with an own `_constructor` compute the plates in
the same way). -/
def idConstructor (plates : Option (List Nat)) (parents : List (List Nat)) : Except PyErr Constructed := do
  let parentPlates ← platesFromParents idMap parents
  return ⟨parents, ← totalPlates plates parentPlates, idMap⟩

/-- The shape of the variable in `GaussianARD._constructor`, `gaussian.py` lines 1623-1643; `mu_alpha` are the
plates of the joint parent. -/
def ardShape (muAlpha : List Nat) (ndim : Option Nat) (shape : Option (List Nat)) : Except PyErr (List Nat) :=
  match ndim, shape with
  | none, some shape => .ok shape
  | none, none => .ok []
  | some ndim, some shape => if ndim ≠ shape.length then .error .valueError else .ok shape
  | some ndim, none =>
    if ndim = 0 then .ok []
    else if ndim > muAlpha.length then .error .valueError
    else .ok (muAlpha.drop (muAlpha.length - ndim))

/-- `GaussianARD._constructor`, `gaussian.py` lines 1605-1660. -/
def ardConstructor (plates : Option (List Nat)) (muAlpha : List Nat) (ndim : Option Nat)
    (shape : Option (List Nat)) : Except PyErr Constructed := do
  let shape ← ardShape muAlpha ndim shape
  let map := ardMap shape
  return ⟨[muAlpha], ← totalPlates plates [← map.fromParent 0 muAlpha], map⟩

/-- `if cond: raise e`. -/
def raiseIf (cond : Prop) [Decidable cond] (e : PyErr) : Except PyErr Unit := if cond then .error e else .ok ()

/-- `p[-k]` if `len(p) >= k`, or 1: the number of time instances seen by a parent.  The later checks `len(p) >= k and
p[-k] != 1 and p[-k] != M-1` are those of this number. -/
def timePlate (p : List Nat) (k : Nat) : Except PyErr Nat := if p.length ≥ k then negIdx p k else .ok 1

/-- The length of the chain from two parents with `n1` and `n2` time instances, `gaussian_markov_chain.py` lines
844-857 (`GaussianMarkovChain`), 1371-1388 (`Varying...`) and 1907-1924 (`Switching...`). -/
def chainLength (n : Option Nat) (n1 n2 : Nat) : Except PyErr Nat :=
  if n1 ≠ n2 ∧ n1 ≠ 1 ∧ n2 ≠ 1 then .error .exception
  else
    let m := max n2 n1
    match n with
    | none => if m = 1 then .error .exception else .ok (m + 1)
    | some n => if m ≠ 1 ∧ m + 1 ≠ n then .error .exception else .ok n

/-- The check of the last plates `(N-1, D)` or `(1, D)` of a parent, `gaussian_markov_chain.py` lines 875-885,
1417-1430 and 1952-1965. -/
def checkTimePlates (p : List Nat) (M D : Nat) : Except PyErr Unit := do
  raiseIf (p.length = 0) .exception
  raiseIf ((← negIdx p 1) ≠ D) .exception
  let x ← timePlate p 2
  raiseIf (x ≠ 1 ∧ x ≠ M - 1) .valueError

/-- The number of time instances seen by the input signals, `gaussian_markov_chain.py` lines 834-838. -/
def inputsTime : Option (List Nat) → Except PyErr Nat
  | some inputs => timePlate inputs 1
  | none => .ok 1

/-- `GaussianMarkovChain._constructor`, `gaussian_markov_chain.py` lines 796-908.  The plates are computed from the
first two parents only. -/
def gmcConstructor (plates : Option (List Nat)) (mu A : List Nat) (inputs : Option (List Nat)) (D : Nat)
    (n : Option Nat) : Except PyErr Constructed := do
  let nInputs ← inputsTime inputs
  let nA ← timePlate A 2
  let M ← chainLength n nInputs nA
  checkTimePlates A M D
  let map := gmcMap M D
  return ⟨[mu, A] ++ inputs.toList, ← totalPlates plates [← map.fromParent 0 mu, ← map.fromParent 1 A], map⟩

/-- `VaryingGaussianMarkovChain._constructor`, `gaussian_markov_chain.py` lines 1331-1450. -/
def varyingConstructor (plates : Option (List Nat)) (mu Lambda B S v : List Nat) (D : Nat) (n : Option Nat) :
    Except PyErr Constructed := do
  let nS ← timePlate S 1
  let nv ← timePlate v 2
  let M ← chainLength n nS nv
  raiseIf (B.length = 0) .valueError
  raiseIf ((← negIdx B 1) ≠ D) .valueError
  raiseIf (nS ≠ 1 ∧ nS ≠ M - 1) .valueError
  checkTimePlates v M D
  let map := varyingMap M D
  return ⟨[mu, Lambda, B, S, v],
    ← totalPlates plates [← map.fromParent 0 mu, ← map.fromParent 1 Lambda, ← map.fromParent 2 B,
      ← map.fromParent 3 S, ← map.fromParent 4 v], map⟩

/-- `SwitchingGaussianMarkovChain._constructor`, `gaussian_markov_chain.py` lines 1866-1985; `K` is the number of
categories of `Z`. -/
def switchingConstructor (plates : Option (List Nat)) (mu Lambda B Z v : List Nat) (D K : Nat) (n : Option Nat) :
    Except PyErr Constructed := do
  let _ ← negIdx B 2
  raiseIf (Z.length = 0) .valueError
  let nZ ← negIdx Z 1
  let nv ← timePlate v 2
  let M ← chainLength n nZ nv
  raiseIf (B.length < 2 ∨ B.drop (B.length - 2) ≠ [K, D]) .valueError
  raiseIf (nZ ≠ M - 1) .valueError
  checkTimePlates v M D
  let map := switchingMap M D K
  return ⟨[mu, Lambda, B, Z, v],
    ← totalPlates plates [← map.fromParent 0 mu, ← map.fromParent 1 Lambda, ← map.fromParent 2 B,
      ← map.fromParent 3 Z, ← map.fromParent 4 v], map⟩

/-- The number of states, `categorical_markov_chain.py` lines 316-335. -/
def cmcLength (P : List Nat) (states : Option Nat) : Except PyErr Nat :=
  if P.length < 2 then
    match states with
    | none => .error .valueError
    | some N => .ok N
  else do
    let x ← negIdx P 2
    match states with
    | none => if x = 1 then .ok 2 else .ok (x + 1)
    | some N => if x = 1 then .ok N else if x + 1 ≠ N then .error .valueError else .ok (x + 1)

/-- `CategoricalMarkovChain._constructor`, `categorical_markov_chain.py` lines 297-357; `D` is the number of
categories of `p0`. -/
def cmcConstructor (plates : Option (List Nat)) (p0 P : List Nat) (D : Nat) (states : Option Nat) :
    Except PyErr Constructed := do
  let N ← cmcLength P states
  raiseIf (P.length < 1) .valueError
  raiseIf ((← negIdx P 1) ≠ D) .valueError
  let map := cmcMap N D
  return ⟨[p0, P], ← totalPlates plates [← map.fromParent 0 p0, ← map.fromParent 1 P], map⟩

/-- `Mixture._constructor`, `mixture.py` lines 436-488, with `cluster_plate = -(g + 1)`; `raw` is what the
constructor of the mixed distribution returns and `Kz` the number of categories of `z`. -/
def mixtureConstructor (plates : Option (List Nat)) (z : List Nat) (Kz : Nat) (raw : Constructed) (g : Nat) :
    Except PyErr Constructed := do
  raiseIf (raw.plates.length < g + 1) .valueError
  let K ← negIdx raw.plates (g + 1)
  raiseIf (Kz ≠ K) .valueError
  let plates ← totalPlates plates [raw.plates.eraseIdx (raw.plates.length - (g + 1)), z]
  return ⟨z :: raw.parents, plates, mixtureMap raw.map g K⟩

/-- `Gate.__init__`, `gate.py` lines 38-83, with `gated_plate = -(g + 1)`; `Kz` is the number of categories of `Z`. -/
def gateConstructor (plates : Option (List Nat)) (Z : List Nat) (Kz : Nat) (X : List Nat) (g : Nat) :
    Except PyErr Constructed := do
  raiseIf (X.length < g + 1) .valueError
  let K ← negIdx X (g + 1)
  raiseIf (Kz ≠ K) .valueError
  buildDeterministic plates (gateMap g K) [Z, X]

end Verif
