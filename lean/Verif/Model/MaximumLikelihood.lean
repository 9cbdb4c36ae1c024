import Verif.Model.BlockBandedSolve
import Mathlib.Algebra.BigOperators.Fin

/-!
# Model of `bayespy/inference/vmp/nodes/ml.py`: `MaximumLikelihood` and `Function`

A network of `N` nodes in the order of construction, so that the parents of a node have smaller numbers.  The value of every
node is a vector over a common index type `ι`: arrays of different shapes use different parts of it, and what a node does not
use plays no role.  Nodes without plate multipliers.  The messages that a node gets from children that are neither `Function`
nor `MaximumLikelihood` nodes (through `DeltaInstanceConverter`) are an argument, `term`.
-/

namespace Verif

/-- A node: a `MaximumLikelihood` node, or `Function(function, *nodes_gradients)` with the numbers of the parents, the
function and the gradients, which get the message and the values of the parents. -/
inductive MLNode (ι : Type)
  | ml
  | function (parents : List ℕ) (f : (Fin parents.length → ι → ℝ) → ι → ℝ)
      (gradients : Fin parents.length → (ι → ℝ) → (Fin parents.length → ι → ℝ) → ι → ℝ)

variable {ι : Type}

/-- is it a `MaximumLikelihood` node? -/
def MLNode.isMl : MLNode ι → Bool
  | .ml => true
  | .function _ _ _ => false

/-- `get_moments`, lines 168-169 and, through `Deterministic.get_moments` (`deterministic.py` lines 62-64), lines 227-229.  The
parents come before the node; the recursion is cut off at other parents, which do not exist. -/
def mlValue (net : ℕ → MLNode ι) (x : ℕ → ι → ℝ) (v : ℕ) : ι → ℝ :=
  match net v with
  | .ml => x v
  | .function ps f _ => f fun k => if _h : ps[k] < v then mlValue net x ps[k] else fun _ => 0
termination_by v

/-- The messages of node `j` to its parent number `v`, one for each index of this parent (`_compute_message_to_parent`, lines
232-234; the mask is one, lines 237-238); `m` is the message from the children of `j`. -/
def mlMessageTo (net : ℕ → MLNode ι) (value : ℕ → ι → ℝ) (j v : ℕ) (m : ι → ℝ) : ι → ℝ :=
  match net j with
  | .ml => fun _ => 0
  | .function ps _ g => ∑ k : Fin ps.length, if ps[k] = v then g k m (fun k => value ps[k]) else fun _ => 0

/-- `_message_from_children` of node `v` (`node.py` lines 657-687), which asks the children for their messages from their
children, at most `depth` nodes deep. -/
def mlMessage (net : ℕ → MLNode ι) (N : ℕ) (value term : ℕ → ι → ℝ) : ℕ → ℕ → ι → ℝ
  | 0, _ => fun _ => 0
  | depth + 1, v => term v + ∑ j ∈ Finset.range N, mlMessageTo net value j v (mlMessage net N value term depth j)

/-- `MaximumLikelihood.get_riemannian_gradient` and `get_gradient`, lines 179-187: the regularisation is left out
("REGULARIZATION GRADIENT!!") -/
def mlGradient (net : ℕ → MLNode ι) (N : ℕ) (x term : ℕ → ι → ℝ) (v : ℕ) : ι → ℝ :=
  mlMessage net N (mlValue net x) term N v

/-- `MaximumLikelihood.lower_bound_contribution`, lines 172-176 -/
def mlContribution [Fintype ι] (regularization : Option ((ι → ℝ) → ι → ℝ)) (x : ι → ℝ) : ℝ :=
  match regularization with
  | none => 0
  | some r => -∑ i, r x i

/-- `WishartMoments.compute_fixed_moments(Lambda, gradient=[g0, g1])`, `wishart.py` lines 55-74, with the factor `U` of
`linalg.chol`; also `DeltaInstanceConverter.compute_message_to_parent`, `ml.py` lines 124-127 -/
noncomputable def wishartDelta {D : ℕ} (U : Matrix (Fin D) (Fin D) ℝ) (g0 : Matrix (Fin D) (Fin D) ℝ) (g1 : ℝ) :
    Matrix (Fin D) (Fin D) ℝ :=
  g0 + g1 • cholInv U

end Verif
