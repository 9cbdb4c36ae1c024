import Verif.Spec.Arr
import Verif.Model.Support

/-!
# The lower bound of one plate
-/

namespace Verif.Spec

/-- the number, if it is one -/
noncomputable def Flt.toReal : Flt → ℝ
  | .fin r => r
  | _ => 0

/-- `Σ_i ⟨A_i, U_i⟩` on the plate with coordinates `c`; each pair of arrays comes with its variable axes -/
noncomputable def pairing (c : Nat → Nat) (ts : List (List Nat × Arr Flt × Arr Flt)) : ℝ :=
  (ts.map fun t => sumOver t.1 fun d =>
    Flt.toReal (t.2.1.at (joinC t.1.length d c)) * Flt.toReal (t.2.2.at (joinC t.1.length d c))).sum

/-- What a plate adds to the lower bound: `⟨log p(x)⟩`, up to `f`, is `⟨φ_p, u⟩ + g_p`; an observed plate has a known `f`, and a latent
plate has the entropy `-(⟨φ_q, u⟩ + g_q)`, weighed by the temperature `T`, in which `f` cancels. -/
noncomputable def plateBound (dims : List (List Nat)) (T : ℝ) (gp f g : Arr Flt) (phiP phi u : List (Arr Flt)) (observed : Arr Bool)
    (c : Nat → Nat) : ℝ :=
  pairing c (dims.zip (phiP.zip u)) + Flt.toReal (gp.at c)
    + if observed.at c then Flt.toReal (f.at c) else -T * (pairing c (dims.zip (phi.zip u)) + Flt.toReal (g.at c))

/-- a real number -/
def IsFin (x : Flt) : Prop := ∃ r, x = .fin r

/-- The numbers that the lower bound of a plate needs exist: parameters only where the moments are not zero, `f` only if the plate is
observed, `g` and the parameters of the approximation only if it is not. -/
structure PlateDefined (dims : List (List Nat)) (gp f g : Arr Flt) (phiP phi u : List (Arr Flt)) (observed : Arr Bool) (c : Nat → Nat) :
    Prop where
  prior : IsFin (gp.at c)
  value : observed.at c → IsFin (f.at c)
  cgf : observed.at c = false → IsFin (g.at c)
  moments : ∀ t ∈ dims.zip (phiP.zip (phi.zip u)), ∀ i ∈ indices t.1, ∃ x,
    t.2.2.2.at (joinC t.1.length (coord i) c) = .fin x ∧ (x ≠ 0 →
      IsFin (t.2.1.at (joinC t.1.length (coord i) c)) ∧
        (observed.at c = false → IsFin (t.2.2.1.at (joinC t.1.length (coord i) c))))

end Verif.Spec
