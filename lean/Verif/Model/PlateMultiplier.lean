import Verif.Model.Network

/-!
# Plate multipliers in a network

`plates_multiplier` (`node.py` lines 295-301, 409-420) makes every element of a node stand for several ones.  `mult n` is the
product of the multipliers of the node `n`.  In a network with multipliers the map `back` includes the factor `r` of
`_message_to_parent`, `node.py` lines 623-652, along the way.
-/

namespace Verif
namespace Net
variable (G : Net)

/-- `lower_bound_contribution`, lines 472-480, and `VB.compute_lowerbound` with the multipliers -/
noncomputable def multBound (mult : G.N → ℝ) (s : G.State) : ℝ :=
  ∑ n, (∑ q, if G.mask n q then G.contribution n s q else 0) * mult n

end Net
end Verif
