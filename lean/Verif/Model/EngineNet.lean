import Verif.Model.Engine
import Verif.Model.Network

/-!
# The inference engine on a network

`VB` (`vmp.py`, see `Model/Engine.lean`) with the nodes of a network (`Model/Network.lean`), without callback.
The numbers of the engine are real numbers and NaN.
-/

namespace Verif

/-- Arithmetic with NaN (`none`).  Division by zero gives NaN; in the convergence test (`vmp.py` lines 738-743) the divisor is
zero only if both bounds are, so the quotient is `0/0`. -/
noncomputable instance nanOps : FloatOps (Option ℝ) where
  zero := some 0
  nan := none
  half := some (1 / 2)
  add a b := Option.map₂ (· + ·) a b
  sub a b := Option.map₂ (· - ·) a b
  mul a b := Option.map₂ (· * ·) a b
  div a b := match a, b with
    | some x, some y => if y = 0 then none else some (x / y)
    | _, _ => none
  abs a := a.map abs
  lt a b := match a, b with
    | some x, some y => decide (x < y)
    | _, _ => false

/-- the attributes of the nodes together; of the record of a node only its own part is used -/
def netDecode (G : Net) (w : G.N → NodeState G.State Unit Unit (Option ℝ)) : G.State where
  phi := fun n => (w n).data.phi n
  u := fun n => (w n).data.u n
  g := fun n => (w n).data.g n
  f := fun n => (w n).data.f n

/-- the nodes of the network as the engine sees them -/
noncomputable def netEnv (G : Net) (name : G.N → String) : VBEnv G.N G.State Unit Unit (Option ℝ) where
  name := name
  hasUpdate := fun _ => true
  savable := fun _ => true
  update := fun n w => (.ok (), Function.update w n { w n with data := G.update n (netDecode G w) })
  contribution := fun n w => .ok (some (∑ q, if G.mask n q then G.contribution n (netDecode G w) q else 0))
  callback := fun w => (.ok (), w)
  maskOf := fun _ _ => ()

end Verif
