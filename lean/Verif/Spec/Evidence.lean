import Mathlib.MeasureTheory.Constructions.Pi
import Mathlib.MeasureTheory.Integral.Bochner.Basic
import Verif.Model.Network

/-!
# The evidence: the joint density of the model with its unobserved variables integrated out
-/

namespace Verif.Spec
open MeasureTheory

/-- The random variable behind a distribution: its values `X` with a measure (volume or counting), its statistics `T` and
the function `fx` of the value which its density has as a factor.  For every natural parameter in `dom` the density is
`exp (phi ⬝ᵥ T x + cgf phi + fx x)`; it integrates to one, and `mom` gives the expectations of the statistics (C22). -/
structure Sampled (F : Family) (dom : Set (F.I → ℝ)) where
  X : Type
  [ms : MeasurableSpace X]
  vol : Measure X
  [sf : SigmaFinite vol]
  T : X → F.I → ℝ
  fx : X → ℝ
  measT : ∀ i, Measurable fun x => T x i
  measF : Measurable fx
  norm : ∀ phi ∈ dom, ∫ x, Real.exp (phi ⬝ᵥ T x + F.cgf phi + fx x) ∂vol = 1
  int : ∀ phi ∈ dom, ∀ i, Integrable (fun x => T x i * Real.exp (phi ⬝ᵥ T x + F.cgf phi + fx x)) vol
  mean : ∀ phi ∈ dom, ∀ i, ∫ x, T x i * Real.exp (phi ⬝ᵥ T x + F.cgf phi + fx x) ∂vol = F.mom phi i

attribute [instance] Sampled.ms Sampled.sf

variable (G : Net) {dom : ∀ n, Set ((G.fam n).I → ℝ)} (R : ∀ n, Sampled (G.fam n) (dom n))

/-- the elements of the model which are not observed (and not ignored) -/
abbrev Latent : Type := { e : Σ n, G.plate n // (G.mask e.1 e.2 && !G.observed e.1 e.2) = true }

/-- the statistics of all variables, the latent ones having the values `z`, the others those of the data -/
noncomputable def statistics (data : G.Moments) (z : ∀ e : Latent G, (R e.1.1).X) : G.Moments := fun n q =>
  if h : (G.mask n q && !G.observed n q) = true then (R n).T (z ⟨⟨n, q⟩, h⟩) else data n q

/-- The logarithm of the joint density of data and latent values: for every variable the logarithm of its density given
its parents, where `f` is the term of the data. -/
noncomputable def logJoint (data : G.Moments) (f : ∀ n, G.plate n → ℝ) (z : ∀ e : Latent G, (R e.1.1).X) : ℝ :=
  ∑ n, ∑ q, if G.mask n q then
      (G.fam n).phiP (G.parents n (statistics G R data z) q) ⬝ᵥ statistics G R data z n q
        + (G.fam n).cgfP (G.parents n (statistics G R data z) q)
        + (if h : (G.mask n q && !G.observed n q) = true then (R n).fx (z ⟨⟨n, q⟩, h⟩) else f n q)
    else 0

/-- The evidence: the joint density integrated over all latent variables; it may be infinite. -/
noncomputable def evidence (data : G.Moments) (f : ∀ n, G.plate n → ℝ) : ENNReal :=
  ∫⁻ z, ENNReal.ofReal (Real.exp (logJoint G R data f z)) ∂(Measure.pi fun e : Latent G => (R e.1.1).vol)

end Verif.Spec
