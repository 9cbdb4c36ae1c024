import Verif.Model.MarkovChain
import Verif.Model.Network

/-!
# The categorical Markov chain as a family of a network

`CategoricalMarkovChainDistribution`, `categorical_markov_chain.py` lines 77-217, for one chain with `D` states and `N`
transitions.  The moments are a vector over the first state and a table for every transition; the plates which the
transition matrix has for time and rows belong to the chain.
-/

namespace Verif

/-- the index set of the moments: the first state, or two consecutive states -/
abbrev CatChainIx (D N : Nat) := Fin D ⊕ Fin N × Fin D × Fin D

variable {D N : Nat}

/-- `CategoricalMarkovChainMoments.compute_fixed_moments`, lines 42-67 -/
def cmcFixed (z : Fin (N + 1) → Fin D) : CatChainIx D N → ℝ
  | .inl i => if z 0 = i then 1 else 0
  | .inr (n, i, j) => if z n.castSucc = i ∧ z n.succ = j then 1 else 0

/-- the array `phi[1]` as a function of time -/
def cmcTable (phi : CatChainIx D N → ℝ) : Nat → Fin D → Fin D → WithBot ℝ := fun n i j =>
  if h : n < N then ((phi (.inr (⟨n, h⟩, i, j)) : ℝ) : WithBot ℝ) else ((0 : ℝ) : WithBot ℝ)

/-- the call of `alpha_beta_recursion`, line 128 -/
noncomputable def cmcRun (phi : CatChainIx D N → ℝ) : Option ((Fin D → ℝ) × (Nat → Fin D → Fin D → ℝ) × ℝ) :=
  alphaBetaRecursion (fun i => ((phi (.inl i) : ℝ) : WithBot ℝ)) (cmcTable phi) N

/-- `compute_moments_and_cgf`, lines 121-130, the moments (zero if the recursion fails) -/
noncomputable def cmcMoments (phi : CatChainIx D N → ℝ) : CatChainIx D N → ℝ := fun k =>
  match cmcRun phi with
  | none => 0
  | some (z0, zz, _) => match k with
    | .inl i => z0 i
    | .inr (n, i, j) => zz n i j

/-- the second result -/
noncomputable def cmcCgf (phi : CatChainIx D N → ℝ) : ℝ :=
  match cmcRun phi with
  | none => 0
  | some (_, _, g) => g

/-- the index sets of the parents: initial probabilities, transition probabilities -/
abbrev CMCSlot (D N : Nat) : Bool → Type
  | false => Fin D
  | true => Fin N × Fin D × Fin D

/-- `compute_phi_from_parents`, lines 113-119 -/
def cmcFPhi (p0 : Fin D → ℝ) (P : Fin N × Fin D × Fin D → ℝ) : CatChainIx D N → ℝ
  | .inl i => p0 i
  | .inr k => P k * 1

/-- `compute_message_to_parent`, lines 91-101 -/
def cmcMsg : (k : Bool) → (CatChainIx D N → ℝ) → CMCSlot D N k → ℝ
  | false, u => fun i => u (.inl i)
  | true, u => fun k => u (.inr k)

instance : ∀ k, Fintype (CMCSlot D N k)
  | false => inferInstanceAs (Fintype (Fin D))
  | true => inferInstanceAs (Fintype (Fin N × Fin D × Fin D))

/-- `CategoricalMarkovChainDistribution`; the normaliser from the parents is zero, lines 132-136 -/
noncomputable def cmcFamily (D N : Nat) : Family where
  I := CatChainIx D N
  K := Bool
  P := CMCSlot D N
  phiP := fun pa => cmcFPhi (pa false) (pa true)
  cgfP := fun _ => 0
  msg := fun k u _ => cmcMsg k u
  mom := cmcMoments
  cgf := cmcCgf

end Verif
