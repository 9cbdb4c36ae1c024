import Verif.Model.Py

/-!
# Model of the search for converters of moments, `bayespy/inference/vmp/nodes/node.py` lines 50-179
-/

namespace Verif

/-- The classes of moments, as Python sees them.  `own` are the attributes `_converters` stored in the
class itself (`none` if the class has no such attribute). -/
structure ClassEnv (α κ : Type _) where
  /-- `cls.__bases__` -/
  bases : α → List α
  /-- `cls.__mro__` -/
  mro : α → List α
  /-- `issubclass` -/
  issub : α → α → Bool
  /-- the class `Moments` -/
  moments : α
  own : α → Option (List (α × κ))

variable {α κ : Type _} [DecidableEq α]

/-- The attribute look-up `cls._converters`. -/
def ClassEnv.convs (env : ClassEnv α κ) (c : α) : List (α × κ) :=
  ((env.mro c).findSome? env.own).getD []

/-- `d[key] = value` for a dictionary. -/
def dictSet (d : List (α × κ)) (key : α) (value : κ) : List (α × κ) :=
  if d.any (fun e => e.1 = key) then d.map fun e => if e.1 = key then (key, value) else e
  else d ++ [(key, value)]

/-- `Moments.add_converter`, lines 104-107. -/
def addConverter (env : ClassEnv α κ) (cls momentsTo : α) (converter : κ) : ClassEnv α κ :=
  { env with own := fun c =>
      if c = cls then some (dictSet (env.convs cls) momentsTo converter) else env.own c }

/-- Lines 156-165: add the un-visited bases of a class.  (`isinstance(p, Moments)` in line 160 is
false for classes `p`, thus nothing is appended to `parents`.) -/
def addBases (env : ClassEnv α κ) (path : List κ) : List α → List α → List (α × List κ) →
    List α × List (α × List κ)
  | [], visited, cur => (visited, cur)
  | b :: bs, visited, cur =>
    if env.issub b env.moments = true ∧ b ∉ visited then
      addBases env path bs (b :: visited) (cur ++ [(b, path)])
    else addBases env path bs visited cur

/-- Lines 149-165: `inl` if the target is hit, otherwise `visited` and `current_list`. -/
def levelUp (env : ClassEnv α κ) (target : α) : List (α × List κ) → List α → List (α × List κ) →
    Sum (List κ) (List α × List (α × List κ))
  | [], visited, cur => .inr (visited, cur)
  | (c, path) :: rest, visited, cur =>
    if env.issub c target then .inl path
    else
      let r := addBases env path (env.bases c) visited (cur ++ [(c, path)])
      levelUp env target rest r.1 r.2

/-- Lines 170-174. -/
def addConvs (path : List κ) : List (α × κ) → List α → List (α × List κ) →
    List α × List (α × List κ)
  | [], visited, out => (visited, out)
  | (d, k) :: cs, visited, out =>
    if d ∉ visited then addConvs path cs (d :: visited) (out ++ [(d, path ++ [k])])
    else addConvs path cs visited out

/-- Lines 168-174. -/
def convertAll (env : ClassEnv α κ) : List (α × List κ) → List α → List (α × List κ) →
    List α × List (α × List κ)
  | [], visited, out => (visited, out)
  | (c, path) :: rest, visited, out =>
    let r := addConvs path (env.convs c) visited out
    convertAll env rest r.1 r.2

/-- The loop in lines 145-178; `none` if it needs more than `fuel` iterations. -/
def converterLoop (env : ClassEnv α κ) (target : α) : Nat → List (α × List κ) → List α →
    Option (Except PyErr (List κ))
  | 0, _, _ => none
  | fuel + 1, converted, visited =>
    if converted.length > 0 then
      match levelUp env target converted visited [] with
      | .inl path => some (.ok path)
      | .inr (visited, cur) =>
        let r := convertAll env cur visited []
        converterLoop env target fuel r.2 r.1
    else some (.error .noConverter)

/-- `Moments.get_converter`, lines 110-179, of an instance of the class `source`.  The result is the
list of converters, to be applied from left to right (`composite_function`, `utils/misc.py` lines
271-283). -/
def getConverter (env : ClassEnv α κ) (source target : α) (fuel : Nat) :
    Option (Except PyErr (List κ)) :=
  if env.issub source target then some (.ok [])
  else converterLoop env target fuel [(source, [])] [source]

end Verif
