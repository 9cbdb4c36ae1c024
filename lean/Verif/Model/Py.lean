/-!
# Python run-time conventions shared by the model

Exceptions are modelled as values of `Except PyErr`; only the class of the exception is kept
(messages and printed diagnostics are dropped).
-/

namespace Verif

/-- Classes of Python exceptions raised by the modelled code. -/
inductive PyErr where
  | valueError
  | indexError
  | typeError
  | keyError
  | runtimeError
  | exception
  | notImplemented
  | zeroDivisionError
  | attributeError
  | nameError
  | assertionError
  | noConverter
  deriving DecidableEq, Repr

/-- Equality of outcomes is decidable (used only to evaluate concrete examples). -/
instance instDecidableEqExcept {ε α : Type _} [DecidableEq ε] [DecidableEq α] :
    DecidableEq (Except ε α)
  | .ok a, .ok b => if h : a = b then isTrue (by rw [h]) else isFalse (by intro h'; cases h'; exact h rfl)
  | .error a, .error b =>
    if h : a = b then isTrue (by rw [h]) else isFalse (by intro h'; cases h'; exact h rfl)
  | .ok _, .error _ => isFalse (by intro h; cases h)
  | .error _, .ok _ => isFalse (by intro h; cases h)

/-- Python's `a[-k]` for a tuple/list `a` and `k ≥ 1` (`IndexError` if `k > len(a)`). -/
def negIdx {α : Type _} (a : List α) (k : Nat) : Except PyErr α :=
  if k = 0 then .error .indexError
  else if k ≤ a.length then
    match a[a.length - k]? with
    | some x => .ok x
    | none => .error .indexError
  else .error .indexError

end Verif
