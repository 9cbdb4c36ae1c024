import Mathlib.Order.BoundedOrder.Basic
import Verif.Model.Graph

/-!
# Specification of the graph of nodes

Everything here refers only to what the user wrote: the kinds of the nodes, the parents given to their
constructors and the observed plates, never to the registered children.
-/

namespace Verif.Spec

variable {M : Type _}

/-- What the user passes to a constructor: parents exist, constants have none, and a node without
data passes no data to its parents. -/
structure ValidNode [Bot M] (g : Graph M) (nd : NodeSpec M) : Prop where
  parents : ∀ p ∈ nd.parents, p < g.size
  constant : nd.kind = .constant → nd.parents = []
  toParent : ∀ i, nd.toParent i ⊥ = ⊥

/-- No nodes. -/
def emptyGraph [Bot M] : Graph M where
  size := 0
  kind _ := .constant
  parents _ := []
  plates _ := []
  toParent _ _ _ := ⊥
  children _ := []
  mask _ := ⊥
  observed _ := ⊥

/-- The graphs after any history of constructions, none of which fails after its parents were
informed, and of calls of `observe` and `unobserve` (`m = ⊥`) for stochastic nodes.  (A construction
rejected because of dependent parents does not change anything.) -/
inductive Built [SemilatticeSup M] [OrderBot M] : Graph M → Prop
  | empty : Built emptyGraph
  | construct {g g' : Graph M} {nd : NodeSpec M} {n : Nat} :
      Built g → ValidNode g nd → Verif.construct nd g = (.ok n, g') → Built g'
  | observe {g : Graph M} {n : Nat} (m : M) :
      Built g → g.kind n = .stochastic → Built (setObserved n m g)

/-- A node that can send messages: a stochastic node or a deterministic node with a stochastic
descendant through deterministic nodes. -/
inductive Influential (g : Graph M) : Nat → Prop
  | stochastic {c : Nat} : g.kind c = .stochastic → Influential g c
  | deterministic {c d : Nat} :
      (g.kind c).isDet = true → c ∈ g.parents d → Influential g d → Influential g c

/-- The stochastic node `s` is below `n`: from `s` one reaches `n` by going to a parent, and on through
deterministic nodes only. -/
inductive Below (g : Graph M) : Nat → Nat → Prop
  | direct {n s : Nat} : g.kind s = .stochastic → n ∈ g.parents s → Below g n s
  | via {n d s : Nat} : (g.kind d).isDet = true → n ∈ g.parents d → Below g d s → Below g n s

/-- The value of `n` depends on the stochastic node `s` through deterministic nodes only (or is
`s`). -/
inductive Uses (g : Graph M) : Nat → Nat → Prop
  | self {s : Nat} : g.kind s = .stochastic → Uses g s s
  | via {n q s : Nat} : (g.kind n).isDet = true → q ∈ g.parents n → Uses g q s → Uses g n s

/-- Plate `t` of node `d` maps to plate `q` of node `n`: one goes up from `d` to `n` through parents,
and each step relates a plate of the child to a plate of its parent. -/
inductive Reaches {ι : Type _} (g : Graph (ι → Prop)) (link : Nat → Nat → ι → ι → Prop) :
    Nat → ι → Nat → ι → Prop
  | refl {n : Nat} {q : ι} : Reaches g link n q n q
  | step {n c i d : Nat} {q r t : ι} :
      (g.parents c)[i]? = some n → link c i r q → Reaches g link c r d t → Reaches g link n q d t

end Verif.Spec
