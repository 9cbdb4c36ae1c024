import Mathlib.MeasureTheory.Measure.Lebesgue.Basic
import Mathlib.MeasureTheory.Constructions.Pi
import Mathlib.MeasureTheory.Integral.Bochner.Set
import Mathlib.Analysis.SpecialFunctions.Gamma.Basic
import Mathlib.Analysis.SpecialFunctions.Trigonometric.Basic

/-!
# The distributions of the generators of NumPy
-/

namespace Verif.Spec
open MeasureTheory

/-- the probability of an event of one draw of `np.random.rand`, which is uniform on `[0, 1)` -/
noncomputable def uniformProb (E : ℝ → Prop) : ENNReal := volume {x : ℝ | x ∈ Set.Ico (0 : ℝ) 1 ∧ E x}

/-- the probability of an event of `n` independent draws of `np.random.rand` -/
noncomputable def uniformProbs {n : ℕ} (E : (Fin n → ℝ) → Prop) : ENNReal :=
  volume {x : Fin n → ℝ | (∀ i, x i ∈ Set.Ico (0 : ℝ) 1) ∧ E x}

/-- the density of `np.random.randn`: independent standard normal numbers -/
noncomputable def standardNormalPdf {ι : Type*} [Fintype ι] (z : ι → ℝ) : ℝ :=
  ∏ i, (Real.sqrt (2 * Real.pi))⁻¹ * Real.exp (-(z i ^ 2) / 2)

/-- the density of `np.random.gamma(shape, scale)`, as documented -/
noncomputable def numpyGammaPdf (shape scale x : ℝ) : ℝ :=
  x ^ (shape - 1) * Real.exp (-x / scale) / (scale ^ shape * Real.Gamma shape)

/-- the density of `x / ∑ x` on the probability simplex if `x` has the density `f` on the positive vectors: the
integral over the ray through `p`, with the Jacobian `s ^ (K - 1)` of the polar coordinates `x = s p` -/
noncomputable def normalisedPdf {ι : Type*} [Fintype ι] (f : (ι → ℝ) → ℝ) (p : ι → ℝ) : ℝ :=
  ∫ s in Set.Ioi (0 : ℝ), s ^ ((Fintype.card ι : ℝ) - 1) * f fun i => s * p i

end Verif.Spec
