/-!
# Specification of NumPy's broadcasting rule

Axes are counted **from the right**, starting at 0.  A missing axis has length one.
-/

namespace Verif.Spec

/-- Length of axis `k` counted from the right (`0` is the last axis); missing axes count as `1`. -/
def axisLen (s : List Nat) (k : Nat) : Nat := (s.reverse)[k]?.getD 1

/-- NumPy's rule: the shapes can be broadcast together iff on each axis any two lengths different
from one are equal. -/
def Compatible (shapes : List (List Nat)) : Prop :=
  ∀ k, ∀ s ∈ shapes, ∀ t ∈ shapes,
    axisLen s k = 1 ∨ axisLen t k = 1 ∨ axisLen s k = axisLen t k

/-- `r` is the broadcast shape of `shapes`: it has as many axes as the longest one, every argument
has on each axis either length one or the length in `r`, and lengths other than one are taken from
some argument. -/
structure IsBroadcast (shapes : List (List Nat)) (r : List Nat) : Prop where
  rank_ge : ∀ s ∈ shapes, s.length ≤ r.length
  rank_le : r.length = 0 ∨ ∃ s ∈ shapes, s.length = r.length
  fits : ∀ k, ∀ s ∈ shapes, axisLen s k = 1 ∨ axisLen s k = axisLen r k
  attained : ∀ k, axisLen r k = 1 ∨ ∃ s ∈ shapes, axisLen s k = axisLen r k

/-- An array of shape `s` can be broadcast to exactly the shape `t`. -/
def BroadcastsTo (s t : List Nat) : Prop :=
  s.length ≤ t.length ∧ ∀ k, axisLen s k = 1 ∨ axisLen s k = axisLen t k

end Verif.Spec
