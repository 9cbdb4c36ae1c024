import Verif.Model.MixtureFamily
import Verif.Model.Convert

/-!
# The Gaussian mixture model as a network

The model of `doc/source/examples/gmm.rst` with `N` data vectors of length `D` and `K` clusters, any prior of every cluster
and any missing vectors:

    alpha = Dirichlet(a0)
    z = Categorical(alpha, plates=(N,))
    mu = Gaussian(mu0, L0, plates=(K,))
    Lambda = Wishart(n0, V0, plates=(K,))
    Y = Mixture(z, Gaussian, mu, Lambda)
    Y.observe(data, mask=mask)
-/

namespace Verif

/-- the stochastic nodes -/
inductive GM
  | alpha
  | z
  | mu
  | lam
  | y
  deriving DecidableEq

instance : Fintype GM := ⟨{.alpha, .z, .mu, .lam, .y}, by intro x; cases x <;> decide⟩

structure GMParams where
  N : ℕ
  K : ℕ
  D : ℕ
  a0 : Fin K → ℝ
  mu0 : Fin K → Fin D → ℝ
  L0 : Fin K → Matrix (Fin D) (Fin D) ℝ
  n0 : ℝ
  V0 : Fin K → Matrix (Fin D) (Fin D) ℝ
  mask : Fin N → Bool

variable (P : GMParams)

noncomputable def gmFam : GM → Family
  | .alpha => dirichletFamily (Fin P.K)
  | .z => multinomialFamily (Fin P.K) 1
  | .mu => gaussianFamily (Fin P.D)
  | .lam => wishartFamily (Fin P.D) (wishartPriorFixed P.D P.n0)
  | .y => mixtureFamily (gaussianFamily (Fin P.D)) (Fin P.K)

def gmPlate : GM → Type
  | .alpha => Unit
  | .z => Fin P.N
  | .mu => Fin P.K
  | .lam => Fin P.K
  | .y => Fin P.N

instance : ∀ n, Fintype (gmPlate P n)
  | .alpha => inferInstanceAs (Fintype Unit)
  | .z => inferInstanceAs (Fintype (Fin P.N))
  | .mu => inferInstanceAs (Fintype (Fin P.K))
  | .lam => inferInstanceAs (Fintype (Fin P.K))
  | .y => inferInstanceAs (Fintype (Fin P.N))

abbrev GMMoments := (n : GM) → gmPlate P n → (gmFam P n).I → ℝ

/-- The parent of the mixture: `WrapToGaussianWishart` (after `GaussianToGaussianGamma`) of the mean and the precision of
every cluster; its plate axis is the axis of the clusters. -/
noncomputable def gmComponents {ι κ : Type} [Fintype ι] (mu : κ → GIx ι → ℝ) (lam : κ → WIx ι → ℝ) : GWIx ι × κ → ℝ :=
  fun jc => wrapGW (toGaussianGamma (mu jc.2)) (lam jc.2) jc.1

noncomputable def gmSlot : (c : GM) → (k : (gmFam P c).K) → GMMoments P → gmPlate P c → (gmFam P c).P k → ℝ
  | .alpha => fun _ _ _ => concentrationFixed P.a0
  | .z => fun _ u _ => u .alpha ()
  | .mu => fun _ _ c => wrapGW (toGaussianGamma (gaussianFixed (P.mu0 c))) (wishartFixed (P.L0 c))
  | .lam => fun _ _ c => wishartFixed (P.V0 c)
  | .y => fun k u i => match k with
    | none => u .z i
    | some _ => gmComponents (u .mu) (u .lam)

/-- the messages which arrive at a node; the sums over the plates of the child which the node does not have -/
noncomputable def gmBack : (c : GM) → (k : (gmFam P c).K) → (n : GM) → GMMoments P →
    (gmPlate P c → (gmFam P c).P k → ℝ) → gmPlate P n → (gmFam P n).I → ℝ
  | .y => fun k n u => match k, n with
    | none, .z => fun m i => m i
    | some _, .mu => fun m c => ∑ i : Fin P.N, toGaussianGammaMsg (wrapGWMsgX (fun j => m i (j, c)) (u .lam c))
    | some _, .lam => fun m c => ∑ i : Fin P.N, wrapGWMsgL (fun j => m i (j, c)) (toGaussianGamma (u .mu c))
    | some _, .alpha => fun _ _ _ => 0
    | some _, .z => fun _ _ _ => 0
    | some _, .y => fun _ _ _ => 0
    | none, .alpha => fun _ _ _ => 0
    | none, .mu => fun _ _ _ => 0
    | none, .lam => fun _ _ _ => 0
    | none, .y => fun _ _ _ => 0
  | .z => fun _ n _ m => match n with
    | .alpha => fun _ => ∑ i : Fin P.N, m i
    | .z => fun _ _ => 0
    | .mu => fun _ _ => 0
    | .lam => fun _ _ => 0
    | .y => fun _ _ => 0
  | .alpha => fun _ _ _ _ _ _ => 0
  | .mu => fun _ _ _ _ _ _ => 0
  | .lam => fun _ _ _ _ _ _ => 0

/-- the masks which `observe` propagates (C33); the mask of the mixture has no axis of clusters -/
def gmMask : (n : GM) → gmPlate P n → Bool
  | .alpha => fun _ => decide (∃ i, P.mask i = true)
  | .z => fun i => P.mask i
  | .mu => fun _ => decide (∃ i, P.mask i = true)
  | .lam => fun _ => decide (∃ i, P.mask i = true)
  | .y => fun i => P.mask i

def gmObserved : (n : GM) → gmPlate P n → Bool
  | .y => fun i => P.mask i
  | .alpha => fun _ => false
  | .z => fun _ => false
  | .mu => fun _ => false
  | .lam => fun _ => false

noncomputable def gmNet : Net where
  N := GM
  fam := gmFam P
  plate := gmPlate P
  ann := fun _ => 1
  bias := fun _ _ _ => 0
  observed := gmObserved P
  mask := gmMask P
  slot := gmSlot P
  back := gmBack P

end Verif
