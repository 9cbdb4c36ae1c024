import Verif.Spec.Arr

/-!
# Specification vocabulary: an extra plate axis
-/

namespace Verif.Spec

/-- The plates `P` with an axis of length `K` inserted such that `g` axes come after it. -/
def insAxis (g K : Nat) (P : List Nat) : List Nat := P.take (P.length - g) ++ [K] ++ P.drop (P.length - g)

/-- The coordinate `p` with the position `k` along that axis. -/
def insC (g k : Nat) (p : Nat → Nat) : Nat → Nat :=
  fun j => if j < g then p j else if j = g then k else p (j - 1)

end Verif.Spec
