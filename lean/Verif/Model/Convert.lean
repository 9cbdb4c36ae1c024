import Verif.Model.GaussianDist
import Verif.Model.Py
import Mathlib.Data.List.GetD

/-!
# Model of the conversions between moment types

Simplifications as in `Verif.Model.GaussianDist`: one plate at a time (the plates of the parents before the conversion),
real numbers, variable axes as one finite index type.  The moments of the wrappers are `wrapGW` and `toGaussianGamma`
there.
-/

namespace Verif

/-! ### `Complement`, `beta.py` lines 190-213 -/

/-- `_compute_moments`: `u_p[0][...,-1::-1]` -/
def complementMoments (u : Fin 2 → ℝ) : Fin 2 → ℝ := fun i => u i.rev

/-- `_compute_message_to_parent`: `m[0][...,-1::-1]` -/
def complementMsg (m : Fin 2 → ℝ) : Fin 2 → ℝ := fun i => m i.rev

/-! ### `CategoricalToBernoulli`, `bernoulli.py` lines 139-158 -/

def catToBernoulli (u : Fin 2 → ℝ) : ℝ := u 0

def catToBernoulliMsg (m : ℝ) : Fin 2 → ℝ := ![m, 0]

/-! ### `CategoricalMarkovChainToCategorical`, `categorical_markov_chain.py` lines 379-407

The moments `[p0, zz]` of a chain with `N` transitions and `K` states are a function on `Fin K ⊕ Fin N × Fin K × Fin K`.
The result and the message have a time axis; that of the message is its last plate axis and can therefore be missing
(`none`) or have any length, in particular one where the message does not depend on time. -/

abbrev CMCIx (N K : Nat) := Fin K ⊕ Fin N × Fin K × Fin K

/-- lines 379-399; see also `cmcToCategorical` -/
def cmcMarginals {N K : Nat} (u : CMCIx N K → ℝ) : Fin (N + 1) → Fin K → ℝ :=
  Fin.cons (fun i => u (.inl i)) fun t j => ∑ i, u (.inr (t, i, j))

/-- lines 401-407: `m[0][...,0,:]` and `m[0][...,1:,None,:]`; the second has the time axis and a unit axis for the
earlier state -/
def cmcMarginalsMsg {K : Nat} (m : Option (List (Fin K → ℝ))) : Except PyErr ((Fin K → ℝ) × List (Fin K → ℝ)) :=
  match m with
  | none => .error .indexError
  | some [] => .error .indexError
  | some (m0 :: m1) => .ok (m0, m1)

section
variable {ι : Type*} [Fintype ι] [DecidableEq ι]

/-! ### `GaussianToGaussianGamma`, `gaussian.py` lines 2226-2272 -/

/-- `m_child[:2]` -/
def toGaussianGammaMsg (m : GGIx ι → ℝ) : GIx ι → ℝ := mkG (gg0 m) (gg1 m)

/-! ### `WrapToGaussianGamma`, `gaussian.py` lines 2299-2371 -/

/-- lines 2339-2348 -/
def wrapGG (uX : GGIx ι → ℝ) (ua : Fin 2 → ℝ) : GGIx ι → ℝ :=
  mkGG (fun i => gg0 uX i * ua 0) (fun i j => gg1 uX i j * ua 0) (gg2 uX * ua 0) (gg3 uX + ua 1)

/-- lines 2354-2360 -/
def wrapGGMsgX (m : GGIx ι → ℝ) (ua : Fin 2 → ℝ) : GGIx ι → ℝ :=
  mkGG (fun i => gg0 m i * ua 0) (fun i j => gg1 m i j * ua 0) (gg2 m * ua 0) (gg3 m)

/-- lines 2361-2369 -/
def wrapGGMsgA (m : GGIx ι → ℝ) (uX : GGIx ι → ℝ) : Fin 2 → ℝ :=
  ![∑ i, gg0 m i * gg0 uX i + ∑ i, ∑ j, gg1 m i j * gg1 uX i j + gg2 m * gg2 uX, gg3 m]

/-! ### `WrapToGaussianWishart`, `gaussian.py` lines 2374-2527, of a Gaussian-gamma and a Wishart parent; other
combinations raise `NotImplementedError` -/

/-- lines 2493-2503 -/
noncomputable def wrapGWMsgX (m : GWIx ι → ℝ) (uL : WIx ι → ℝ) : GGIx ι → ℝ :=
  mkGG ((w0 uL).mulVec (gw0 m)) (fun i j => w0 uL i j * gw1 m) (∑ i, ∑ j, w0 uL i j * gw2 m i j)
    ((Fintype.card ι : ℝ) * gw3 m)

/-- lines 2507-2519 -/
noncomputable def wrapGWMsgL (m : GWIx ι → ℝ) (uX : GGIx ι → ℝ) : WIx ι → ℝ :=
  mkW (fun i j => 0.5 * (gg0 uX i * gw0 m j) + 0.5 * (gw0 m i * gg0 uX j) + gg1 uX i j * gw1 m + gg2 uX * gw2 m i j)
    (gw3 m)

/-! ### `_ScaledWishart`, `wishart.py` lines 307-359 -/

/-- lines 329-340 -/
noncomputable def scaleWishart (uL : WIx ι → ℝ) (ua : Fin 2 → ℝ) : WIx ι → ℝ :=
  mkW (fun i j => w0 uL i j * ua 0) (w1 uL + (Fintype.card ι : ℝ) * ua 1)

/-- lines 345-350 -/
noncomputable def scaleWishartMsgL (m : WIx ι → ℝ) (ua : Fin 2 → ℝ) : WIx ι → ℝ :=
  mkW (fun i j => w0 m i j * ua 0) (w1 m)

/-- lines 352-357 -/
noncomputable def scaleWishartMsgA (m : WIx ι → ℝ) (uL : WIx ι → ℝ) : Fin 2 → ℝ :=
  ![∑ i, ∑ j, w0 m i j * w0 uL i j, w1 m * (Fintype.card ι : ℝ)]

end

/-! ### `GaussianToGaussian`, `gaussian.py` lines 86-158

`α` are the variable axes that become plates and `β` those that are kept (`ndim_to` of them).  The moments of the result
and the message are `[α × β, α × β × β]`. -/

section
variable {α β : Type*} [Fintype α] [Fintype β] [DecidableEq α] [DecidableEq β]

abbrev G2GIx (α β : Type*) := α × β ⊕ α × β × β

/-- lines 111-118; `misc.get_diag` takes the diagonal of the axes `α`, `misc.py` lines 1207-1250 -/
def gaussianToGaussian (u : GIx (α × β) → ℝ) : G2GIx α β → ℝ :=
  Sum.elim (fun p => u (.inl p)) fun q => u (.inr ((q.1, q.2.1), (q.1, q.2.2)))

/-- `misc.make_diag(X, ndim, ndim_from)`, `misc.py` lines 1160-1204: line 1199 takes the identity over all `ndim` axes -/
def makeDiag (X : α × β × β → ℝ) : Matrix (α × β) (α × β) ℝ :=
  fun p q => (if p = q then 1 else 0) * X (p.1, p.2, q.2)

/-- lines 121-128; the products with `np.ones(shape_from)` and `misc.identity(*shape_from)` expand unit axes -/
def gaussianToGaussianMsg (m : G2GIx α β → ℝ) : GIx (α × β) → ℝ :=
  mkG (fun p => m (.inl p) * 1) fun p q => makeDiag (fun r => m (.inr r)) p q * (if p = q then 1 else 0)

end

end Verif
