import Verif.Model.Engine

/-!
# Specification of iterations of the inference engine
-/

namespace Verif.Spec
open Verif

variable {ν V O M F : Type _}

/-- `key` refers to node `n` of the model: either the node itself or its name (the last node with
that name). -/
def Refers (env : VBEnv ν V O M F) (model : List ν) : NodeKey ν → ν → Prop
  | .node m, n => m = n ∧ n ∈ model
  | .name s, n => ∃ as bs, model = as ++ n :: bs ∧ env.name n = s ∧ ∀ b ∈ bs, env.name b ≠ s

/-- The nodes referred to by `keys` are updated one after the other, in this order. -/
inductive UpdatedInOrder (env : VBEnv ν V O M F) (model : List ν) :
    List (NodeKey ν) → (ν → NodeState V O M F) → (ν → NodeState V O M F) → Prop
  | nil (w) : UpdatedInOrder env model [] w w
  | update {k ks n w w1 w2} : Refers env model k n → env.hasUpdate n = true →
      env.update n w = (.ok (), w1) → UpdatedInOrder env model ks w1 w2 →
      UpdatedInOrder env model (k :: ks) w w2
  | skip {k ks n w w2} : Refers env model k n → env.hasUpdate n = false →
      UpdatedInOrder env model ks w w2 → UpdatedInOrder env model (k :: ks) w w2

variable [FloatOps F]

/-- One completed iteration takes `s` to `s'`. -/
structure Iteration (env : VBEnv ν V O M F) (keys : List (NodeKey ν)) (tol : Option F)
    (s s' : VBState ν V O M F) : Prop where
  /-- the nodes are updated in order, then the callback runs -/
  updated : ∃ w, UpdatedInOrder env s.model keys s.world w ∧ env.callback w = (.ok (), s'.world)
  model : s'.model = s.model
  iter : s'.iter = s.iter + 1
  /-- one bound value is appended per node, and their sum to the total -/
  history : ∃ c : ν → F, (∀ n ∈ s.model, env.contribution n s'.world = .ok (c n)) ∧
    (∀ n ∈ s.model, (s'.l n).take (s.iter + 1) = (s.l n).take s.iter ++ [c n]) ∧
    s'.L.take (s.iter + 1) = s.L.take s.iter ++
      [s.model.foldl (fun t n => FloatOps.add t (c n)) FloatOps.zero]
  /-- convergence: checks are on, annealing was not changed, there is a previous bound `a`, and the
  relative change from `a` to the new bound `b` is less than the tolerance -/
  converged : s'.converged = true ↔ s.ignoreBoundChecks = false ∧ s.annealingChanged = false ∧
    ∃ a b, s'.L[s.iter]? = some b ∧ 0 < s.iter ∧ s'.L[s.iter - 1]? = some a ∧
      FloatOps.lt (FloatOps.div (FloatOps.sub b a)
        (FloatOps.mul FloatOps.half (FloatOps.add (FloatOps.abs a) (FloatOps.abs b))))
        (tol.getD s.tol) = true
  settings : s'.ignoreBoundChecks = s.ignoreBoundChecks ∧ s'.annealingChanged = false ∧
    s'.tol = s.tol ∧ s'.autosaveIterations = s.autosaveIterations ∧
    s'.autosaveNodes = s.autosaveNodes

/-- What a user may do with the engine between looking at the history (everything but loading).
`nodes f` stands for any direct manipulation of nodes (observing, rotating, setting parameters, ...),
`endStep` for the end of a step of `optimize` or `pattern_search`. -/
inductive VBOp (ν V O M F : Type _) where
  | update (keys : List (NodeKey ν)) (rep : Nat) (tol : Option F)
  | endStep (tol : Option F)
  | nodes (f : (ν → NodeState V O M F) → (ν → NodeState V O M F))
  | setAnnealing (a : F)
  | ignoreBoundChecks (b : Bool)
  | save (keys : List (NodeKey ν))
  | setAutosave (iters : Nat) (nodes : Option (List ν))

end Verif.Spec
