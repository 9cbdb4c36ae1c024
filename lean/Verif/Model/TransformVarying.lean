import Verif.Model.TransformChain
import Verif.Model.Py
import Mathlib.LinearAlgebra.Matrix.Kronecker

/-!
# Model of the rotation of chains with varying and switching dynamics, `transformations.py`

`RotateVaryingMarkovChain` lines 1454-1541, `RotateSwitchingMarkovChain` lines 1544-1632, `RotateMultiple` lines 1635-1675 and the
constructor of `RotateGaussianMarkovChain`, lines 1139-1166.

Notation as in `Model/TransformChain`.  The plates of the chains are `P`.  With varying dynamics `B` has the plates `(1, D)` and its
variable the two axes `(D, K)`, indexed here by pairs; with switching dynamics the plates of `B` are `Q × K × D`, and `β p` is the
plate in `Q` of the chain `p`.
-/

namespace Verif
open Matrix

section
variable {P K : Type*} [Fintype P] [Fintype K] {M D : Nat} {κ : Type} [Fintype κ]

/-! ### varying dynamics -/

/-- `_computations_for_A_and_X` of `RotateVaryingMarkovChain`, lines 1489-1541, in `setup`; `b` are the moments of the rows of `B`
and `S` those of `S` -/
def varySetup (u : P → GMCIx M D → ℝ) (v : P → GWIx (Fin D) → ℝ) (b : Fin D → GIx ((Fin D ⊕ κ) × K) → ℝ)
    (S : P → Fin M → GIx K → ℝ) (z : P → InpIx M κ → ℝ) : ChainSums P D :=
  let Bm := fun d i k => g0 (b d) (i, k)
  let CovB := fun d i k j l => g1 (b d) (i, k) (j, l) - Bm d i k * Bm d j l
  let S_XpXn := fun i j k => ∑ p, ∑ m, g0 (S p m) k * chainXpXn (u p) (z p) m i j
  let SS_XpXp := fun i k j l => ∑ p, ∑ m, g1 (S p m) k l * chainXpXp (u p) (z p) m i j
  let B_SS_XpXp := fun d j l => ∑ i, ∑ k, Bm d i k * SS_XpXp i k j l
  { X0X0 := fun p => c1 (u p) 0
    Lambda := fun p => gw2 (v p)
    XnXn := ∑ p, ∑ m : Fin M, c1 (u p) m.succ
    Lambda_mu_X0 := ∑ p, vecMulVec (gw0 (v p)) (c0 (u p) 0)
    A_XpXn := of fun d j => ∑ i, ∑ k, Bm d i k * S_XpXn i j k
    A_XpXp_A := of fun d e => ∑ j, ∑ l, B_SS_XpXp d j l * Bm e j l
    CovA_XpXp := fun d => ∑ i, ∑ k, ∑ j, ∑ l, CovB d i k j l * SS_XpXp i k j l }

/-- what `rotate` makes of `B` with `RotateGaussianARD(B, axis=-2)`, lines 1172-1189 and 457-471: `GaussianARD.rotate` of the first
variable axis is a rotation by a Kronecker product, and its `logdet` is multiplied by the length of the other axis,
`C46_gaussian_ard_rotate` -/
noncomputable def varyRotateB [DecidableEq κ] [DecidableEq K] (R inv : Matrix (Fin D) (Fin D) ℝ) (logdet : ℝ)
    (s : Fin D → ExpState (GIx ((Fin D ⊕ κ) × K))) : Fin D → ExpState (GIx ((Fin D ⊕ κ) × K)) :=
  ardRotatePlates R fun d => gaussianRotate (kroneckerMap (· * ·) (withInputs invᵀ) 1)
    (some (kroneckerMap (· * ·) (withInputs Rᵀ) 1)) (some (Fintype.card K * -logdet)) (s d)

/-! ### switching dynamics -/

/-- `_computations_for_A_and_X` of `RotateSwitchingMarkovChain`, lines 1582-1632, in `setup`; `b` are the moments of the rows of `B`
and `Z` the probabilities of `Z` -/
def switchSetup {Q : Type*} (β : P → Q) (u : P → GMCIx M D → ℝ) (v : P → GWIx (Fin D) → ℝ) (b : Q → K → Fin D → GIx (Fin D ⊕ κ) → ℝ)
    (Z : P → Fin M → K → ℝ) (z : P → InpIx M κ → ℝ) : ChainSums P D :=
  let Bm : P → K → Matrix (Fin D) (Fin D ⊕ κ) ℝ := fun p k => of fun d => g0 (b (β p) k d)
  let CovB := fun p k d => g1 (b (β p) k d) - vecMulVec (g0 (b (β p) k d)) (g0 (b (β p) k d))
  let Z_XpXn := fun p k => ∑ m, Z p m k • chainXpXn (u p) (z p) m
  let Z_XpXp := fun p k => ∑ m, Z p m k • chainXpXp (u p) (z p) m
  let B_Z_XpXp := fun p k => Bm p k * Z_XpXp p k
  { X0X0 := fun p => c1 (u p) 0
    Lambda := fun p => gw2 (v p)
    XnXn := ∑ p, ∑ m : Fin M, c1 (u p) m.succ
    Lambda_mu_X0 := ∑ p, vecMulVec (gw0 (v p)) (c0 (u p) 0)
    A_XpXn := ∑ p, ∑ k, Bm p k * Z_XpXn p k
    A_XpXp_A := ∑ p, ∑ k, B_Z_XpXp p k * (Bm p k)ᵀ
    CovA_XpXp := fun d => ∑ p, ∑ k, ∑ i, ∑ j, Z_XpXp p k i j * CovB p k d i j }

end

/-! ### several rotators -/

/-- `RotateMultiple.bound`, lines 1660-1669 -/
noncomputable def multipleBlock {ι : Type*} (rotators : List (RotationBlock ι)) : RotationBlock ι where
  bound := fun R logdet inv =>
    rotators.foldl (fun r rotator => let (b, db) := rotator.bound R logdet inv; (r.1 + b, r.2 + db)) (0, 0)

/-! ### constructors -/

/-- the classes which the constructors look for -/
inductive RotCls where
  | wrapToGaussianGamma
  | gaussianToGaussianGamma
  | gaussianMarkovChain
  | other
  deriving DecidableEq

/-- the classes of moments -/
inductive RotMoments where
  | gaussian
  | gaussianGamma
  | gaussianWishart
  | wishart
  | gamma
  | categorical
  | chain
  deriving DecidableEq

/-- what the constructors see of a node: its class, moments, plates, `dims[0]` and parents -/
inductive RotNode where
  | mk (cls : RotCls) (moments : RotMoments) (plates dim : List ℕ) (parents : List RotNode)

namespace RotNode
def cls : RotNode → RotCls | mk c _ _ _ _ => c
def moments : RotNode → RotMoments | mk _ m _ _ _ => m
def plates : RotNode → List ℕ | mk _ _ p _ _ => p
def dim : RotNode → List ℕ | mk _ _ _ d _ => d
def parents : RotNode → List RotNode | mk _ _ _ _ p => p
end RotNode

/-- `X.parents[n]` -/
def rotParent (n : ℕ) (X : RotNode) : Except PyErr RotNode :=
  match X.parents[n]? with
  | some q => .ok q
  | none => .error .indexError

/-- `assert` -/
def pyAssert (b : Bool) : Except PyErr Unit := if b then .ok () else .error .assertionError

/-- the dynamics which `RotateGaussianMarkovChain.__init__` finds, lines 1152-1158 -/
def rotDynamics (X : RotNode) : Except PyErr RotNode := do
  let dynamics_innovation ← rotParent 1 X
  pyAssert (dynamics_innovation.cls == .wrapToGaussianGamma)
  let dynamics_gaussiangamma ← rotParent 0 dynamics_innovation
  pyAssert (dynamics_gaussiangamma.cls == .gaussianToGaussianGamma)
  let dynamics ← rotParent 0 dynamics_gaussiangamma
  pyAssert (dynamics.moments == .gaussian)
  return dynamics

/-- the checks of `RotateVaryingMarkovChain.__init__`, lines 1477-1485 -/
def varyChecks (B S : RotNode) : Except PyErr Unit :=
  if S.plates.getLast?.any (1 < ·) then .error .valueError
  else if B.plates.reverse[1]?.any (1 < ·) then .error .valueError
  else if S.dim.length ≠ 1 then .error .valueError
  else if B.dim.length ≠ 2 then .error .valueError
  else .ok ()

/-- `RotateVaryingMarkovChain.__init__`; the result is `A_node` -/
def varyInit (X B S : RotNode) : Except PyErr RotNode := do
  varyChecks B S
  rotDynamics X

/-- the checks of `RotateSwitchingMarkovChain.__init__`, lines 1567-1578, with `K` and `D` -/
def switchChecks (K D : ℕ) (B Z : RotNode) : Except PyErr Unit :=
  if Z.plates.length = 0 then .error .indexError
  else if B.plates.drop (B.plates.length - 2) ≠ [K, D] then .error .valueError
  else if Z.dim.length ≠ 1 then .error .valueError
  else if B.dim.length ≠ 1 then .error .valueError
  else .ok ()

/-- `RotateSwitchingMarkovChain.__init__`: without plates the condition of line 1570 looks up a plate which does not exist, and with
plates it is false whatever their lengths -/
def switchInit (X B Z : RotNode) : Except PyErr RotNode := do
  match X.dim, Z.dim.head? with
  | [_, D], some K => switchChecks K D B Z
  | [_, _], none => .error .indexError
  | _, _ => .error .valueError
  rotDynamics X

/-- the parents of `VaryingGaussianMarkovChain` and `SwitchingGaussianMarkovChain`, `gaussian_markov_chain.py` lines 1350-1451 and
1885-1985: the mean and the precision of the initial state, the dynamics, the weights or the states, and the innovation noise -/
structure RotNode.OwnDynamics (X : RotNode) : Prop where
  parents : ∃ mu Lambda B S v, X.parents = [mu, Lambda, B, S, v] ∧ Lambda.moments = .wishart

/-- a `WrapToGaussianGamma` node has moments of a Gaussian-gamma variable, `gaussian.py` lines 2306-2337 -/
def RotNode.Typed (q : RotNode) : Prop := q.cls = .wrapToGaussianGamma → q.moments = .gaussianGamma

end Verif
