import Verif.Model.Py
import Mathlib.Analysis.SpecialFunctions.Complex.Arg
import Mathlib.Analysis.SpecialFunctions.Trigonometric.Arctan
import Mathlib.Analysis.SpecialFunctions.Log.Basic
import Mathlib.LinearAlgebra.Matrix.Notation

/-!
# Model of `plot.py`: what is handed to Matplotlib

`bayespy/plot.py` and `misc.grid`.  Real numbers instead of floats.  `eigh` is an input that satisfies its contract (`Spec.Eigh`).
-/

namespace Verif
open Matrix

/-- The arguments of `matplotlib.patches.Ellipse` -/
structure EllipseArgs where
  xy : Fin 2 → ℝ
  width : ℝ
  height : ℝ
  angle : ℝ

/-- `np.arctan(y / x)`; NumPy divides a positive number by zero to infinity and a negative one to minus infinity (zero is taken as positive) -/
noncomputable def arctanRatio (y x : ℝ) : ℝ := if x = 0 then (if 0 < y then Real.pi / 2 else -(Real.pi / 2)) else Real.arctan (y / x)

/-- The ellipse of one cluster in `gaussian_mixture_2d`, lines 464-503, where `scipy.linalg.eigh(L)` is `(u, W)` -/
noncomputable def mixtureEllipse (mu : Fin 2 → ℝ) (u : Fin 2 → ℝ) (W : Matrix (Fin 2) (Fin 2) ℝ) (scale : ℝ) : EllipseArgs :=
  let u0 := Real.sqrt (1 / u 0)
  let u1 := Real.sqrt (1 / u 1)
  let width := 2 * u0
  let height := 2 * u1
  let angle := 180 * arctanRatio (W 0 1) (W 0 0) / Real.pi
  ⟨mu, scale * width, scale * height, 180 + angle⟩

/-- `visibility` of the clusters in `gaussian_mixture_2d`, lines 485-497: `u k` are the eigenvalues and `logp` is `alpha.u[0]` -/
noncomputable def mixtureVisibility {K : Nat} (u : Fin (K + 1) → Fin 2 → ℝ) (logp : Fin (K + 1) → ℝ) (k : Fin (K + 1)) : ℝ :=
  let modeHeight := fun k => 1 / (2 * Real.sqrt (1 / u k 0) * (2 * Real.sqrt (1 / u k 1)))
  let p := fun k => Real.exp (logp k - Real.log (∑ j, Real.exp (logp j)))
  let visibility := fun k => modeHeight k * p k
  visibility k / Finset.univ.sup' Finset.univ_nonempty visibility

/-- `np.arctan2(y, x)` -/
noncomputable def arctan2 (y x : ℝ) : ℝ := Complex.arg ⟨x, y⟩

/-- `ellipse_from_cov`, lines 1370-1392, where `np.linalg.eigh(cov)` is `(evals, evecs)` -/
noncomputable def ellipseFromCov (xy : Fin 2 → ℝ) (evals : Fin 2 → ℝ) (evecs : Matrix (Fin 2) (Fin 2) ℝ) (scale : ℝ) : EllipseArgs :=
  let angle := arctan2 (evecs 1 0) (evecs 0 0)
  ⟨xy, scale * Real.sqrt (evals 0), scale * Real.sqrt (evals 1), angle * 180 / Real.pi⟩

/-! ### Contours -/

/-- `misc.grid(x1, x2)`, `misc.py` lines 588-591: `np.meshgrid` has one row for each element of `x2` -/
def gridPoints (x1 x2 : List ℝ) : List (ℝ × ℝ) := x2.flatMap fun b => x1.map fun a => (a, b)

/-- `np.reshape(l, (m, n))` of a vector -/
def reshape2 (l : List ℝ) (m n : Nat) : Except PyErr (Nat → Nat → Option ℝ) :=
  if l.length = m * n then .ok fun i j => l[i * n + j]? else .error .valueError

/-- The three tables given to `axes.contour` in `contour(Z, x, y)`, lines 238-248; `lpdf` is `Z.logpdf` of one point -/
noncomputable def contourTables (lpdf : ℝ → ℝ → ℝ) (x y : List ℝ) :
    Except PyErr ((Nat → Nat → Option ℝ) × (Nat → Nat → Option ℝ) × (Nat → Nat → Option ℝ)) := do
  let XY := gridPoints x y
  let p := XY.map fun q => Real.exp (lpdf q.1 q.2)
  let X ← reshape2 (XY.map Prod.fst) x.length y.length
  let Y ← reshape2 (XY.map Prod.snd) x.length y.length
  let P ← reshape2 p x.length y.length
  return (X, Y, P)

/-- `np.linspace(0, top, num=n+2)[1:-1]`, line 250 -/
noncomputable def contourLevels (top : ℝ) (n : Nat) : List ℝ := (List.range n).map fun k : Nat => ((k : ℝ) + 1) * (top / (n + 1))

/-- The table of `contourplot(x1, x2, y)`, line 1236 -/
def contourplotTable (x1 x2 y : List ℝ) : Except PyErr (Nat → Nat → Option ℝ) := reshape2 y x2.length x1.length

/-! ### Error bands -/

/-- The lower and upper curve at one point in `errorplot`, lines 1254-1270, or `none` if no band is drawn -/
def errorBand (y : ℝ) (error lower upper : Option ℝ) : Option (ℝ × ℝ) :=
  let lower := if lower.isNone then (if error.isSome then error else if upper.isSome then upper else lower) else lower
  let upper := if upper.isNone then (if error.isSome then error else if lower.isSome then lower else upper) else upper
  match lower, upper with
  | some l, some u => some (y - l, y + u)
  | _, _ => none

/-- The band of one element in `plot_gaussian`, lines 290-297: `x` and `xx` are its first two moments -/
noncomputable def gaussianBand (x xx scale : ℝ) : Option (ℝ × ℝ) := errorBand x (some (scale * Real.sqrt (xx - x ^ 2))) none none

/-! ### Hinton diagrams -/

/-- The drawing of one element: centre of the square, its side, whether it is white, and the side of the square of the error -/
structure HintonCell where
  x : ℝ
  y : ℝ
  side : ℝ
  white : Bool
  frame : Option ℝ

/-- `min(1, a/b)` for `a` not negative: division by zero gives NaN or infinity, and Python's `min(1, nan)` is `1` -/
noncomputable def minOneRatio (a b : ℝ) : ℝ := if b = 0 then 1 else min 1 (a / b)

/-- `min(1, np.sqrt(a/b))`, see above -/
noncomputable def minOneSqrt (a b : ℝ) : ℝ := if b = 0 then 1 else min 1 (Real.sqrt (a / b))

open Classical in
/-- The loop body of `_hinton`, lines 548-577; `2 * hs` of `_blob` is the side -/
noncomputable def hintonCell (vmax w : ℝ) (error : Option ℝ) (x y : Nat) : Except PyErr HintonCell := do
  if let some e := error then
    if e < 0 then throw .exception
    if |w| + e > vmax then throw .exception
  return ⟨x + 1, y + 1, Real.sqrt (minOneRatio |w| vmax), decide (w > 0), error.map fun e => minOneSqrt (|w| + e) vmax⟩

open Classical in
/-- `vmax` in `_hinton`, lines 532-537: `if not vmax` takes zero as missing -/
noncomputable def hintonMax {m n : Nat} (W : Fin (m + 1) → Fin (n + 1) → ℝ) (error : Option (Fin (m + 1) → Fin (n + 1) → ℝ)) (vmax : Option ℝ) : ℝ :=
  let largest := Finset.univ.sup' Finset.univ_nonempty fun q : Fin (m + 1) × Fin (n + 1) => |W q.1 q.2| + (error.elim 0 fun e => e q.1 q.2)
  match vmax with
  | none => largest
  | some v => if v = 0 then largest else v

/-- `_hinton(W, error, vmax)`: what is drawn for column `x` and row `y` -/
noncomputable def hinton {m n : Nat} (W : Fin (m + 1) → Fin (n + 1) → ℝ) (error : Option (Fin (m + 1) → Fin (n + 1) → ℝ)) (vmax : Option ℝ)
    (x : Fin (n + 1)) (y : Fin (m + 1)) : Except PyErr HintonCell :=
  hintonCell (hintonMax W error vmax) (W y x) (error.map fun e => e y x) x y

end Verif
