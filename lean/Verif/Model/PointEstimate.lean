import Verif.Model.Dist
import Verif.Model.Py

/-!
# Model of the maximum likelihood nodes `GammaShape` and `Concentration`

One plate of `GammaShape`; all plates `P` of `Concentration`, because its loop stops for all plates at once.  The
messages from the children and the moments of the node are vectors, as in `Model/Dist.lean`; the message of a plate is
the sum over the children (`Node._message_from_children`).

Simplifications: real numbers; `misc.invpsi` (`misc.py` lines 1404-1426, five Newton steps from a starting point) is
taken as exact, following its documentation: the positive number whose digamma is the argument (`InvPsi.lean` has the
steps, and C74 bounds the relative error by 1e-7).
-/

namespace Verif

/-- `misc.invpsi(x)`: "calculates the value Y > 0 for a value X such that digamma(Y) = X" -/
noncomputable def invpsi (x : ℝ) : ℝ := Classical.epsilon fun y => 0 < y ∧ digamma y = x

/-! ### `GammaShape`, `gamma.py` lines 273-334 -/

/-- `_update_distribution_and_lowerbound`, lines 317-323: the moments after the update; `r` is `(self._m0, self._m1)` -/
noncomputable def gammaShapeUpdate (r m : Fin 2 → ℝ) : Fin 2 → ℝ :=
  let m0 := r 0 + m 0
  let m1 := r 1 + m 1
  gammaPriorFixed (invpsi (-m0 / m1))

/-- the moments after `__init__`, line 288 -/
noncomputable def gammaShapeInit : Fin 2 → ℝ := gammaPriorFixed 1

/-- `lower_bound_contribution`, lines 333-334 -/
def gammaShapeContribution (_r _u : Fin 2 → ℝ) : ℝ := 0

/-! ### `Concentration`, `dirichlet.py` lines 234-330 -/

section
variable {ι : Type*} [Fintype ι]

/-- `regularization=True`, lines 258-260: `[np.log(1/D), 1]`, the scalar is broadcast to the categories -/
noncomputable def concentrationDefault (ι : Type*) [Fintype ι] : Option ι → ℝ
  | some _ => Real.log (1 / Fintype.card ι)
  | none => 1

/-- lines 291-295: `mean_logp` of one plate -/
noncomputable def concentrationMean (r m : Option ι → ℝ) : ι → ℝ := fun k =>
  let logp := m (some k) + r (some k)
  let N := m none + r none
  logp / N

/-- lines 309-312: `a_new` of one plate -/
noncomputable def concentrationStep (mean a : ι → ℝ) : ι → ℝ := fun k => invpsi (digamma (∑ j, a j) + mean k)

/-- the loop, lines 308-314: at most `fuel` turns; `none` if it is still running then.  The first turn is always taken,
because `da` is infinite. -/
noncomputable def concentrationLoop {P : Type*} (mean : P → ι → ℝ) : ℕ → (P → ι → ℝ) → Option (P → ι → ℝ)
  | 0, _ => none
  | fuel + 1, a =>
    let aNew := fun p => concentrationStep (mean p) (a p)
    open Classical in
    if ∃ p k, 1e-5 < |(aNew p k - a p k) / aNew p k| then concentrationLoop mean fuel aNew else some aNew

/-- `_update_distribution_and_lowerbound`, lines 284-318: the moments of all plates after the update -/
noncomputable def concentrationUpdate {P : Type*} (r m : P → Option ι → ℝ) (fuel : ℕ) : Option (P → Option ι → ℝ) :=
  (concentrationLoop (fun p => concentrationMean (r p) (m p)) fuel fun _ _ => 1).map fun a p => concentrationFixed (a p)

/-- `lower_bound_contribution`, lines 326-330, of one plate -/
noncomputable def concentrationContribution (r u : Option ι → ℝ) : ℝ :=
  ∑ k, u (some k) * r (some k) + u none * r none

/-- `lower_bound_contribution` of all plates: an array over the plates, it is not summed -/
noncomputable def concentrationContributions {P : Type*} (r u : P → Option ι → ℝ) : P → ℝ := fun p =>
  concentrationContribution (r p) (u p)

/-- `self.l[node][self.iter] = lp` in `VB.loglikelihood_lowerbound`, `vmp.py` line 197, with an array `lp` over the
plates: NumPy stores an array into one element only if it has one element. -/
noncomputable def storeTerm {P : Type*} [Fintype P] (lp : P → ℝ) : Except PyErr ℝ :=
  if Fintype.card P = 1 then .ok (∑ p, lp p) else .error .valueError

end

/-! ### The keyword of `VB.compute_lowerbound` -/

/-- the definitions of `lower_bound_contribution` in the classes of nodes (except the Gaussian processes) -/
inductive BoundMethod where
  | expFamily      -- `expfamily.py` line 400, `(self, gradient=False, ignore_masked=True)`
  | deterministic  -- `deterministic.py` line 145, `(self, gradient=False, **kwargs)`
  | constant       -- `constant.py` line 79, `(self, gradient=False, **kwargs)`
  | ml             -- `ml.py` line 172, `(self, ignore_masked=None)`
  | gammaShape     -- `gamma.py` line 333, `(self)`
  | concentration  -- `dirichlet.py` line 326, `(self)`
  deriving DecidableEq

/-- a call with the keyword `ignore_masked`; `v` is what the method returns -/
def BoundMethod.callIgnoreMasked (v : ℝ) : BoundMethod → Except PyErr ℝ
  | .gammaShape | .concentration => .error .typeError
  | _ => .ok v

/-- `VB.compute_lowerbound`, `vmp.py` lines 180-184; the nodes of the model with what their methods return -/
noncomputable def computeLowerboundKw (model : List (BoundMethod × ℝ)) : Except PyErr ℝ :=
  model.foldlM (fun L n => do return L + (← n.1.callIgnoreMasked n.2)) 0

end Verif
