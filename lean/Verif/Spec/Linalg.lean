import Verif.Spec.Shape

/-!
# Specification vocabulary: plates and variable axes
-/

namespace Verif.Spec

/-- The shape `s` consists of plates, possibly broadcast, and the variable axes `dims` in full. -/
def PlatesDims (s P dims : List Nat) : Prop := ∃ S, s = S ++ dims ∧ BroadcastsTo S P

end Verif.Spec
