import Verif.Model.Arr
import Verif.Spec.Shape

/-!
# What a constant node must look like
-/

namespace Verif.Spec

/-- The plates are `P`, the dimensions of the moments `D`, and every moment fits the plates followed by its dimensions; the first one,
from which the plates were read, fills them. -/
structure MomentsFit {α : Type} (plates : List Nat) (dims : List (List Nat)) (u : List (Arr α)) (P : List Nat) (D : List (List Nat)) : Prop where
  plates : plates = P
  dims : dims = D
  fit : List.Forall₂ (fun a d => BroadcastsTo a.shape (P ++ d)) u D
  first : ∀ a d, u.head? = some a → D.head? = some d → a.shape = P ++ d

end Verif.Spec
