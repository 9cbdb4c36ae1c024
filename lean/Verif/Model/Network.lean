import Verif.Model.Dist
import Mathlib.Algebra.BigOperators.Pi

/-!
# Model of a network of exponential family nodes: updates and the lower bound

Stochastic nodes of `expfamily.py` in a network, over the real numbers.  A node has a finite set of plate elements; the
arrays of the code which use broadcasting are written out in full, and the moments of one element are one function on an
index set.  Everything between two stochastic nodes (deterministic nodes, constants, converters, broadcasting of plates)
is one map `slot` from the moments of all nodes to the moments which arrive at a parent slot of a child, and one map
`back` from a message of the child to the message which arrives at a node.  Plate multipliers are one.
-/

namespace Verif

/-- A class of `ExponentialFamilyDistribution`: the index set `I` of the moments, the parent slots `K` with their moments
`P k`, and the methods.  A parent slot whose message is not implemented and which has a fixed value is a parameter of the
family instead. -/
structure Family : Type 1 where
  I : Type
  K : Type
  P : K → Type
  [finI : Fintype I]
  [finK : Fintype K]
  [decK : DecidableEq K]
  [finP : ∀ k, Fintype (P k)]
  /-- `compute_phi_from_parents` -/
  phiP : (∀ k, P k → ℝ) → I → ℝ
  /-- `compute_cgf_from_parents` -/
  cgfP : (∀ k, P k → ℝ) → ℝ
  /-- `compute_message_to_parent` -/
  msg : (k : K) → (I → ℝ) → (∀ k, P k → ℝ) → P k → ℝ
  /-- the two results of `compute_moments_and_cgf` -/
  mom : (I → ℝ) → I → ℝ
  cgf : (I → ℝ) → ℝ

attribute [instance] Family.finI Family.finK Family.decK Family.finP

/-- A network. -/
structure Net : Type 1 where
  N : Type
  [finN : Fintype N]
  [decN : DecidableEq N]
  fam : N → Family
  plate : N → Type
  [finPlate : ∀ n, Fintype (plate n)]
  /-- `annealing`, `expfamily.py` line 123 -/
  ann : N → ℝ
  /-- `_phi_bias`, line 129 -/
  bias : (n : N) → plate n → (fam n).I → ℝ
  /-- `observed` and `mask` -/
  observed : (n : N) → plate n → Bool
  mask : (n : N) → plate n → Bool
  /-- the moments from the parents, `_message_from_parents` -/
  slot : (c : N) → (k : (fam c).K) → ((n : N) → plate n → (fam n).I → ℝ) → plate c → (fam c).P k → ℝ
  /-- what a message of the child `c` to its slot `k` adds to the message from the children of `n` -/
  back : (c : N) → (k : (fam c).K) → (n : N) → ((n : N) → plate n → (fam n).I → ℝ) → (plate c → (fam c).P k → ℝ) →
    plate n → (fam n).I → ℝ

attribute [instance] Net.finN Net.decN Net.finPlate

namespace Net
variable (G : Net)

/-- the moments of all nodes -/
abbrev Moments := (n : G.N) → G.plate n → (G.fam n).I → ℝ

/-- the attributes `phi`, `u`, `g` and `f` of the nodes -/
@[ext]
structure State where
  phi : G.Moments
  u : G.Moments
  g : (n : G.N) → G.plate n → ℝ
  f : (n : G.N) → G.plate n → ℝ

/-- the moments of the parents at one plate element -/
def parents (c : G.N) (u : G.Moments) (p : G.plate c) : ∀ k, (G.fam c).P k → ℝ := fun k => G.slot c k u p

/-- `Stochastic._get_message_and_mask_to_parent`, `stochastic.py` lines 174-185, with the mask applied as in
`node.py`, `_message_to_parent` -/
def message (c : G.N) (k : (G.fam c).K) (u : G.Moments) : G.plate c → (G.fam c).P k → ℝ :=
  fun p i => if G.mask c p then (G.fam c).msg k (u c p) (G.parents c u p) i else 0

/-- `_message_from_children`: the sum of the messages of the children -/
def fromChildren (n : G.N) (u : G.Moments) : G.plate n → (G.fam n).I → ℝ :=
  fun q j => ∑ c, ∑ k, G.back c k n u (G.message c k u) q j

/-- `_update_distribution_and_lowerbound`, lines 344-352: the new `phi` -/
def newPhi (n : G.N) (s : G.State) : G.plate n → (G.fam n).I → ℝ :=
  fun q j => G.ann n * (((G.fam n).phiP (G.parents n s.u q) j + G.bias n q j) + G.fromChildren n s.u q j)

/-- `_update_moments_and_cgf`, lines 357-369, after setting `phi`; also `set_parameters`, lines 332-341 -/
def setPhi (n : G.N) (phi : G.plate n → (G.fam n).I → ℝ) (s : G.State) : G.State :=
  { s with
    phi := Function.update s.phi n phi
    u := Function.update s.u n fun q => if !G.observed n q then (G.fam n).mom (phi q) else s.u n q
    g := Function.update s.g n fun q => if !G.observed n q then (G.fam n).cgf (phi q) else s.g n q }

/-- `update` of an unobserved or partially observed node -/
def update (n : G.N) (s : G.State) : G.State := G.setPhi n (G.newPhi n s) s

/-- `lower_bound_contribution`, lines 400-465, before the sum over the plates -/
noncomputable def contribution (n : G.N) (s : G.State) (q : G.plate n) : ℝ :=
  let T := 1 / G.ann n
  (G.fam n).cgfP (G.parents n s.u q) + (if G.observed n q then s.f n q else -T * s.g n q)
    + ∑ i, (if s.u n q i ≠ 0 then
        (G.fam n).phiP (G.parents n s.u q) i - T * (if !G.observed n q then s.phi n q i else 0) else 0) * s.u n q i

/-- `lower_bound_contribution`, lines 467-471, and `VB.compute_lowerbound`: the sum over the elements in the mask and
over the nodes -/
noncomputable def bound (s : G.State) : ℝ := ∑ n, ∑ q, if G.mask n q then G.contribution n s q else 0

end Net

end Verif
