import Mathlib.Analysis.SpecialFunctions.Log.Basic
import Verif.Model.Py

/-!
# Model of small helpers from `bayespy/utils/misc.py`, `bayespy/utils/random.py` and `slicelen`
-/

namespace Verif

/-- Python's `//` on integers (floor division); division by zero raises. -/
def pyFloorDiv (a b : Int) : Except PyErr Int :=
  if b = 0 then .error .zeroDivisionError else .ok (Int.fdiv a b)

/-- `ceildiv(a, b)`, `misc.py` lines 286-290: `-(-a // b)`. -/
def ceildiv (a b : Int) : Except PyErr Int := do
  let q ← pyFloorDiv (-a) b
  return -q

/-- A Python slice object; `none` is `None`. -/
structure PySlice where
  start : Option Int
  stop : Option Int
  step : Option Int

/-- CPython's adjustment of one bound in `slice.indices`: negative values are shifted by the length
and then clipped to `[lower, upper]`. -/
def sliceBound (len lower upper : Int) (x : Int) : Int :=
  if x < 0 then max (x + len) lower else min x upper

/-- `slice.indices(length)` as documented for CPython: a zero step raises `ValueError`. -/
def sliceIndices (s : PySlice) (len : Nat) : Except PyErr (Int × Int × Int) :=
  let step := s.step.getD 1
  if step = 0 then .error .valueError
  else
    let lower : Int := if step < 0 then -1 else 0
    let upper : Int := if step < 0 then (len : Int) - 1 else len
    let start := match s.start with
      | none => if step < 0 then upper else lower
      | some x => sliceBound len lower upper x
    let stop := match s.stop with
      | none => if step < 0 then lower else upper
      | some x => sliceBound len lower upper x
    .ok (start, stop, step)

/-- `slicelen(s, length)`, `node.py` lines 863-866 (with the length given). -/
def slicelen (s : PySlice) (len : Nat) : Except PyErr Int := do
  let (start, stop, step) ← sliceIndices s len
  let n ← ceildiv (stop - start) step
  return max 0 n

/-- `zip(*lists)`: stops at the shortest list; no lists give nothing.  `fuel` is at least the length
of the first list. -/
def zipStar {α : Type _} : Nat → List (List α) → List (List α)
  | 0, _ => []
  | fuel + 1, ls =>
    if ls = [] ∨ ∃ l ∈ ls, l.length = 0 then []
    else ls.flatMap (·.take 1) :: zipStar fuel (ls.map (·.drop 1))

/-- `zipper_merge(*lists)`, `misc.py` lines 670-683: `list(sum(zip(*lists), ()))`. -/
def zipperMerge {α : Type _} (ls : List (List α)) : List α :=
  (zipStar ((ls.headD []).length) ls).foldl (· ++ ·) []

/-- `np.cumsum`. -/
def cumsum (acc : Int) : List Int → List Int
  | [] => []
  | x :: xs => (acc + x) :: cumsum (acc + x) xs

/-- `np.searchsorted(a, v, side='right')`: the number of leading entries that are `≤ v`
(for sorted `a`). -/
def searchsortedRight (a : List Int) (v : Int) : Nat := (a.takeWhile (· ≤ v)).length

/-- `find_set_index(index, set_lengths)`, `misc.py` lines 62-77. -/
def findSetIndex (index : Int) (setLengths : List Nat) : Except PyErr Nat :=
  let total : Int := (setLengths.map Int.ofNat).sum
  let index := if index < 0 then index + total else index
  if index ≥ total ∨ index < 0 then .error .exception
  else .ok (searchsortedRight (cumsum 0 (setLengths.map Int.ofNat)) index)

/-- `unique(l)`, `misc.py` lines 446-452: comprehension with the growing set `seen`. -/
def uniqueLoop {α : Type _} [DecidableEq α] (seen : List α) : List α → List α
  | [] => []
  | x :: xs => if x ∈ seen then uniqueLoop seen xs else x :: uniqueLoop (x :: seen) xs

def unique {α : Type _} [DecidableEq α] (l : List α) : List α := uniqueLoop [] l

/-- `intervals(N, length, amount, gap)`, `random.py` lines 19-43.  `gaps` is the outcome of
`np.random.multinomial(total_gap, ...)`, see `Spec.MultinomialDraw`. -/
def intervals (N length amount gap : Nat) (gaps : List Nat) : Except PyErr (List Nat) :=
  if (length * amount : Int) + gap * ((amount : Int) - 1) > N then .error .valueError
  else .ok (((cumsum 0 ((gaps.take (gaps.length - 1)).map Int.ofNat)).zip (List.range amount)).map
    fun p => p.1.toNat + p.2 * (length + gap))

/-- The number of gap elements distributed by `np.random.multinomial`, `random.py` line 37. -/
def intervalsTotalGap (N length amount gap : Nat) : Int :=
  N - length * amount - gap * ((amount : Int) - 1)

/-! ### log-sum-exp, `misc.py` lines 1366-1402; `⊥` is `-inf` -/

/-- `np.exp` with `exp(-inf) = 0`. -/
noncomputable def expBot : WithBot ℝ → ℝ
  | ⊥ => 0
  | (x : ℝ) => Real.exp x

/-- `np.log` of a non-negative number with `log(0) = -inf`. -/
noncomputable def logBot (x : ℝ) : WithBot ℝ := if x = 0 then ⊥ else (Real.log x : ℝ)

/-- Subtraction of / addition of a finite number. -/
noncomputable def addBot (c : ℝ) : WithBot ℝ → WithBot ℝ
  | ⊥ => ⊥
  | (x : ℝ) => ((x + c : ℝ) : WithBot ℝ)

/-- `np.amax` of a non-empty list. -/
noncomputable def amaxBot (l : List (WithBot ℝ)) : WithBot ℝ := l.foldr max ⊥

/-- The shift actually used: non-finite maxima are replaced by zero. -/
noncomputable def finiteOrZero : WithBot ℝ → ℝ
  | ⊥ => 0
  | (x : ℝ) => x

/-- `logsumexp` along one axis; an empty axis raises `ValueError` in `np.amax`. -/
noncomputable def logsumexp (l : List (WithBot ℝ)) : Except PyErr (WithBot ℝ) :=
  if l = [] then .error .valueError
  else
    let maxX := finiteOrZero (amaxBot l)
    let l := l.map (addBot (-maxX))
    .ok (addBot maxX (logBot (l.map expBot).sum))

/-- `normalized_exp(phi)` along one axis of finite numbers: probabilities and log-normaliser.
(With `-inf` everywhere NumPy computes NaNs; entries `-inf` are covered by `logsumexp` itself.) -/
noncomputable def normalizedExp (phi : List (WithBot ℝ)) :
    Except PyErr (List ℝ × WithBot ℝ) := do
  let logsum ← logsumexp phi
  let p := phi.map fun x => expBot (addBot (-(finiteOrZero logsum)) x)
  return (p.map (· / p.sum), logsum)

/-! ### mean, `misc.py` lines 1455-1469 -/

/-- `mean(X)` along the reduced elements; `none` is NaN, and the result is NaN (0/0) if nothing is
left. -/
noncomputable def nanmean (X : List (Option ℝ)) : Option ℝ :=
  let total := (X.map fun x => x.getD 0).sum
  let count := (X.filter (·.isSome)).length
  if count = 0 then none else some (total / count)

end Verif
