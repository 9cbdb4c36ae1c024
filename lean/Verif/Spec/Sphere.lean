import Mathlib.Analysis.SpecialFunctions.Trigonometric.Basic
import Mathlib.Analysis.InnerProductSpace.PiL2
import Mathlib.MeasureTheory.Integral.IntervalIntegral.Basic

/-!
# Points of the unit sphere
-/

namespace Verif.Spec

/-- the point of the unit sphere with the given latitude and longitude in degrees -/
noncomputable def spherePoint (c : ℝ × ℝ) : EuclideanSpace ℝ (Fin 3) :=
  !₂[Real.cos (c.1 * Real.pi / 180) * Real.cos (c.2 * Real.pi / 180),
    Real.cos (c.1 * Real.pi / 180) * Real.sin (c.2 * Real.pi / 180),
    Real.sin (c.1 * Real.pi / 180)]

/-- The part of the area of the unit sphere with latitude at most `phi` degrees: the circle of latitude `t` has length
`2 pi cos t`, and the sphere has area `4 pi`. -/
noncomputable def southOf (phi : ℝ) : ℝ :=
  (∫ t in (-(Real.pi / 2))..(phi * Real.pi / 180), 2 * Real.pi * Real.cos t) / (4 * Real.pi)

end Verif.Spec
