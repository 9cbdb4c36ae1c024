import Verif.Model.MixtureModel
import Verif.Model.CategoricalChain

/-!
# The hidden Markov model as a network

The model of `doc/source/examples/hmm.rst` and `demos/hmm.py` lines 26-51, with `N + 1` data vectors of length `D`, `K`
states, unknown parameters of the emissions, any priors and any missing vectors:

    a0 = Dirichlet(c0)
    A = Dirichlet(C, plates=(K,))
    Z = CategoricalMarkovChain(a0, A, states=N+1)
    mu = Gaussian(mu0, L0, plates=(K,))
    Lambda = Wishart(n0, V0, plates=(K,))
    Y = Mixture(Z, Gaussian, mu, Lambda)
    Y.observe(data, mask=mask)

`Mixture` converts `Z` with `CategoricalMarkovChainToCategorical`.
-/

namespace Verif

/-- the stochastic nodes -/
inductive HM
  | a0
  | A
  | z
  | mu
  | lam
  | y
  deriving DecidableEq

instance : Fintype HM := ⟨{.a0, .A, .z, .mu, .lam, .y}, by intro x; cases x <;> decide⟩

structure HMParams where
  /-- the number of transitions -/
  N : ℕ
  K : ℕ
  D : ℕ
  c0 : Fin K → ℝ
  C : Fin K → Fin K → ℝ
  mu0 : Fin K → Fin D → ℝ
  L0 : Fin K → Matrix (Fin D) (Fin D) ℝ
  n0 : ℝ
  V0 : Fin K → Matrix (Fin D) (Fin D) ℝ
  mask : Fin (N + 1) → Bool

variable (P : HMParams)

noncomputable def hmFam : HM → Family
  | .a0 => dirichletFamily (Fin P.K)
  | .A => dirichletFamily (Fin P.K)
  | .z => cmcFamily P.K P.N
  | .mu => gaussianFamily (Fin P.D)
  | .lam => wishartFamily (Fin P.D) (wishartPriorFixed P.D P.n0)
  | .y => mixtureFamily (gaussianFamily (Fin P.D)) (Fin P.K)

/-- the plates; the time of `Z` is in its moments, and is a plate axis of `Y` -/
def hmPlate : HM → Type
  | .a0 => Unit
  | .A => Fin P.K
  | .z => Unit
  | .mu => Fin P.K
  | .lam => Fin P.K
  | .y => Fin (P.N + 1)

instance : ∀ n, Fintype (hmPlate P n)
  | .a0 => inferInstanceAs (Fintype Unit)
  | .A => inferInstanceAs (Fintype (Fin P.K))
  | .z => inferInstanceAs (Fintype Unit)
  | .mu => inferInstanceAs (Fintype (Fin P.K))
  | .lam => inferInstanceAs (Fintype (Fin P.K))
  | .y => inferInstanceAs (Fintype (Fin (P.N + 1)))

abbrev HMMoments := (n : HM) → hmPlate P n → (hmFam P n).I → ℝ

/-- The second parent of the chain: the rows of the transition matrix are the last plate axis of `A`, which has no time axis,
so every transition has the same matrix (`categorical_markov_chain.py` lines 113-119). -/
def hmTransition {N K : ℕ} (A : Fin K → Fin K → ℝ) : Fin N × Fin K × Fin K → ℝ := fun p => A p.2.1 p.2.2

/-- the message to `A`: the sum over the time axis, which `A` does not have -/
def hmTransitionMsg {N K : ℕ} (m : Fin N × Fin K × Fin K → ℝ) : Fin K → Fin K → ℝ := fun i j => ∑ t, m (t, i, j)

/-- the message through `CategoricalMarkovChainToCategorical`, `categorical_markov_chain.py` lines 401-407, broadcast to the
earlier states; see `cmcMarginalsMsg` -/
def hmChainMsg {N K : ℕ} (m : Fin (N + 1) → Fin K → ℝ) : CatChainIx K N → ℝ
  | .inl i => m 0 i
  | .inr (t, _, j) => m t.succ j

noncomputable def hmSlot : (c : HM) → (k : (hmFam P c).K) → HMMoments P → hmPlate P c → (hmFam P c).P k → ℝ
  | .a0 => fun _ _ _ => concentrationFixed P.c0
  | .A => fun _ _ i => concentrationFixed (P.C i)
  | .z => fun k u _ => match k with
    | false => u .a0 ()
    | true => hmTransition (u .A)
  | .mu => fun _ _ c => wrapGW (toGaussianGamma (gaussianFixed (P.mu0 c))) (wishartFixed (P.L0 c))
  | .lam => fun _ _ c => wishartFixed (P.V0 c)
  | .y => fun k u i => match k with
    | none => cmcMarginals (u .z ()) i
    | some _ => gmComponents (u .mu) (u .lam)

/-- the messages which arrive at a node; the sums over the plates of the child which the node does not have -/
noncomputable def hmBack : (c : HM) → (k : (hmFam P c).K) → (n : HM) → HMMoments P →
    (hmPlate P c → (hmFam P c).P k → ℝ) → hmPlate P n → (hmFam P n).I → ℝ
  | .y => fun k n u => match k, n with
    | none, .z => fun m _ => hmChainMsg m
    | some _, .mu => fun m c =>
        ∑ i : Fin (P.N + 1), toGaussianGammaMsg (wrapGWMsgX (fun j => m i (j, c)) (u .lam c))
    | some _, .lam => fun m c => ∑ i : Fin (P.N + 1), wrapGWMsgL (fun j => m i (j, c)) (toGaussianGamma (u .mu c))
    | some _, .a0 => fun _ _ _ => 0
    | some _, .A => fun _ _ _ => 0
    | some _, .z => fun _ _ _ => 0
    | some _, .y => fun _ _ _ => 0
    | none, .a0 => fun _ _ _ => 0
    | none, .A => fun _ _ _ => 0
    | none, .mu => fun _ _ _ => 0
    | none, .lam => fun _ _ _ => 0
    | none, .y => fun _ _ _ => 0
  | .z => fun k n _ => match k, n with
    | false, .a0 => fun m _ => m ()
    | true, .A => fun m => hmTransitionMsg (m ())
    | false, .A => fun _ _ _ => 0
    | false, .z => fun _ _ _ => 0
    | false, .mu => fun _ _ _ => 0
    | false, .lam => fun _ _ _ => 0
    | false, .y => fun _ _ _ => 0
    | true, .a0 => fun _ _ _ => 0
    | true, .z => fun _ _ _ => 0
    | true, .mu => fun _ _ _ => 0
    | true, .lam => fun _ _ _ => 0
    | true, .y => fun _ _ _ => 0
  | .a0 => fun _ _ _ _ _ _ => 0
  | .A => fun _ _ _ _ _ _ => 0
  | .mu => fun _ _ _ _ _ _ => 0
  | .lam => fun _ _ _ _ _ _ => 0

/-- The masks which `observe` propagates (C33).  The chain is used if any time is observed
(`categorical_markov_chain.py` lines 409-413); the initial probabilities and the rows of the transition matrix get the mask
of the chain (lines 103-111). -/
def hmMask : (n : HM) → hmPlate P n → Bool
  | .a0 => fun _ => decide (∃ i, P.mask i = true)
  | .A => fun _ => decide (∃ i, P.mask i = true)
  | .z => fun _ => decide (∃ i, P.mask i = true)
  | .mu => fun _ => decide (∃ i, P.mask i = true)
  | .lam => fun _ => decide (∃ i, P.mask i = true)
  | .y => fun i => P.mask i

def hmObserved : (n : HM) → hmPlate P n → Bool
  | .y => fun i => P.mask i
  | .a0 => fun _ => false
  | .A => fun _ => false
  | .z => fun _ => false
  | .mu => fun _ => false
  | .lam => fun _ => false

noncomputable def hmNet : Net where
  N := HM
  fam := hmFam P
  plate := hmPlate P
  ann := fun _ => 1
  bias := fun _ _ _ => 0
  observed := hmObserved P
  mask := hmMask P
  slot := hmSlot P
  back := hmBack P

end Verif
