import Verif.Model.Mixture
import Verif.Model.ChainArrays
import Mathlib.Analysis.SpecialFunctions.Log.Basic

/-!
# Model of `Mixture.integrated_logpdf_from_parents`, `bayespy/inference/vmp/nodes/mixture.py` lines 491-545

`cluster_plate = -(g + 1)`.  The arrays which the mixed distribution computes are arguments, as in `Model/Mixture`.
-/

namespace Verif
open Spec

/-- The largest of `x 0, ..., x n` -/
noncomputable def maxTo (x : Nat → ℝ) : Nat → ℝ
  | 0 => x 0
  | n + 1 => max (maxTo x n) (x (n + 1))

/-- `np.max(X, axis=-(k+1), keepdims=True)`; an empty axis raises `ValueError` -/
noncomputable def npMaxKeep (X : Arr ℝ) (k : Nat) : Except PyErr (Arr ℝ) :=
  if k < X.shape.length ∧ axisLen X.shape k ≠ 0 then
    .ok { shape := X.shape.set (X.shape.length - 1 - k) 1
          get := fun c => maxTo (fun t => X.get (Function.update c k t)) (axisLen X.shape k - 1) }
  else .error .valueError

/-- `np.squeeze(X, axis=-(k+1))` -/
def npSqueezeAxis {α : Type _} (X : Arr α) (k : Nat) : Except PyErr (Arr α) :=
  if k < X.shape.length ∧ axisLen X.shape k = 1 then
    .ok { shape := X.shape.eraseIdx (X.shape.length - 1 - k), get := fun c => X.get (insCoord k 0 c) }
  else .error .valueError

/-- Lines 522-524: the exponents `lpdf - lpdf_max`, and `lpdf_max` -/
noncomputable def shiftLpdf (g : Nat) (lpdf : Arr ℝ) : Except PyErr (Arr ℝ × Arr ℝ) := do
  let m ← npMaxKeep lpdf g
  let s ← broadcastedShape [lpdf.shape, m.shape]
  return ({ shape := s, get := fun c => lpdf.at c - m.at c }, m)

/-- Lines 522-543 -/
noncomputable def averagePdf (g : Nat) (lpdf p : Arr ℝ) : Except PyErr (Arr ℝ) := do
  let (d, m) ← shiftLpdf g lpdf
  let pdf ← moveaxis { shape := d.shape, get := fun c => Real.exp (d.get c) } (-((g : Int) + 1)) (-1)
  let x ← npMul pdf p
  let s ← npSumAxis x g
  let m ← npSqueezeAxis m g
  npAdd { shape := s.shape, get := fun c => Real.log (s.get c) } m

/-- `integrated_logpdf_from_parents(x, 0)`.  `f` and the moments `u` are those of the point `x`; one triple (number of variable axes,
`u`, natural parameters of the clusters) for each moment; `p` are the probabilities of the clusters. -/
noncomputable def integratedLogpdf (g : Nat) (f cgf : Arr ℝ) (ts : List (Nat × Arr ℝ × Arr ℝ)) (p : Arr ℝ) : Except PyErr (Arr ℝ) := do
  let f ← npExpandDims f g
  let ts ← ts.mapM fun t => do return (t.1, ← npExpandDims t.2.1 (g + t.1), t.2.2)
  let lpdf ← computeLogpdf cgf f ts
  averagePdf g lpdf p

end Verif
