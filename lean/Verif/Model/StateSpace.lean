import Verif.Model.TransformChain
import Verif.Model.GaussianChain

/-!
# The linear state-space model as a network

The model of `doc/source/examples/lssm.rst`, with `M + 1` time instances, `D` states, `K` constant input signals (none in the
example), `J` rows of data, any constant prior means and any missing values:

    alpha = Gamma(aA, bA, plates=(D+K,))
    A = GaussianARD(muA, alpha, shape=(D+K,), plates=(D,))
    X = GaussianMarkovChain(mu0, Lambda0, A, np.ones(D), n=M+1, inputs=z)
    gamma = Gamma(aC, bC, plates=(D,))
    C = GaussianARD(muC, gamma, shape=(D,), plates=(J, 1))
    tau = Gamma(at, bt)
    Y = GaussianARD(SumMultiply('d,d->', C, X), tau)
    Y.observe(data, mask=mask)

Unit plate axes are left out.
-/

namespace Verif
open Matrix

section
variable {M D : Nat}

/-- `_MarkovChainToGaussian._compute_moments`, `gaussian_markov_chain.py` lines 2032-2049; the time axis becomes a plate axis -/
def chainToGaussian (u : GMCIx M D → ℝ) (n : Fin (M + 1)) : GIx (Fin D) → ℝ := mkG (c0 u n) (c1 u n)

/-- `_compute_message_to_parent`, lines 2059-2092; `None` is the zero message -/
def chainToGaussianMsg (m : Fin (M + 1) → GIx (Fin D) → ℝ) : GMCIx M D → ℝ :=
  mkC (fun n => g0 (m n)) (fun n => g1 (m n)) fun _ => 0

/-- the message of the chain to one row of the dynamics: `WrapToGaussianGamma` and `GaussianToGaussianGamma`, `gaussian.py` lines
2264-2272 and 2351-2371, with the constant precision one, and the sum over the time axis, which the rows do not have -/
def dynMsg {κ : Type} (m : DynIx M D κ → ℝ) (d : Fin D) : GIx (Fin D ⊕ κ) → ℝ :=
  mkG (fun j => ∑ n, d0 m n d j * 1) fun j k => ∑ n, d1 m n d j k * 1

end

/-- the stochastic nodes -/
inductive SS
  | alpha
  | a
  | x
  | gamma
  | c
  | tau
  | y
  deriving DecidableEq

instance : Fintype SS := ⟨{.alpha, .a, .x, .gamma, .c, .tau, .y}, by intro x; cases x <;> decide⟩

structure SSParams where
  M : ℕ
  D : ℕ
  K : ℕ
  J : ℕ
  aA : Fin D ⊕ Fin K → ℝ
  bA : Fin D ⊕ Fin K → ℝ
  muA : Fin D → Fin D ⊕ Fin K → ℝ
  mu0 : Fin D → ℝ
  Lambda0 : Matrix (Fin D) (Fin D) ℝ
  z : Fin M → Fin K → ℝ
  aC : Fin D → ℝ
  bC : Fin D → ℝ
  muC : Fin J → Fin D → ℝ
  at' : ℝ
  bt : ℝ
  mask : Fin J → Fin (M + 1) → Bool

variable (P : SSParams)

noncomputable def ssFam : SS → Family
  | .alpha => gammaFamily
  | .a => ardFamily (Fin P.D ⊕ Fin P.K)
  | .x => gmcFamily P.M P.D (Fin P.K)
  | .gamma => gammaFamily
  | .c => ardFamily (Fin P.D)
  | .tau => gammaFamily
  | .y => ard0Family

def ssPlate : SS → Type
  | .alpha => Fin P.D ⊕ Fin P.K
  | .a => Fin P.D
  | .x => Unit
  | .gamma => Fin P.D
  | .c => Fin P.J
  | .tau => Unit
  | .y => Fin P.J × Fin (P.M + 1)

instance : ∀ n, Fintype (ssPlate P n)
  | .alpha => inferInstanceAs (Fintype (Fin P.D ⊕ Fin P.K))
  | .a => inferInstanceAs (Fintype (Fin P.D))
  | .x => inferInstanceAs (Fintype Unit)
  | .gamma => inferInstanceAs (Fintype (Fin P.D))
  | .c => inferInstanceAs (Fintype (Fin P.J))
  | .tau => inferInstanceAs (Fintype Unit)
  | .y => inferInstanceAs (Fintype (Fin P.J × Fin (P.M + 1)))

abbrev SSMoments := (n : SS) → ssPlate P n → (ssFam P n).I → ℝ

/-- the moments of the constant initial state, `gaussian_markov_chain.py` line 816 -/
noncomputable def ssInitial : GWIx (Fin P.D) → ℝ :=
  wrapGW (toGaussianGamma (gaussianFixed P.mu0)) (wishartFixed P.Lambda0)

noncomputable def ssSlot : (c : SS) → (k : (ssFam P c).K) → SSMoments P → ssPlate P c → (ssFam P c).P k → ℝ
  | .alpha => fun k _ q => if (show Fin 2 from k) = 0 then gammaPriorFixed (P.aA q) else gammaFixed (P.bA q)
  | .a => fun _ u q => fun i : (Fin P.D ⊕ Fin P.K) × Fin 4 => wrap0 (fixed0 (P.muA q i.1)) (u .alpha i.1) i.2
  | .x => fun k u _ => match (show Fin 3 from k) with
    | 0 => ssInitial P
    | 1 => unitDyn fun (_ : Fin P.M) (d : Fin P.D) => u .a d
    | 2 => inpFixed P.z
  | .gamma => fun k _ q => if (show Fin 2 from k) = 0 then gammaPriorFixed (P.aC q) else gammaFixed (P.bC q)
  | .c => fun _ u q => fun i : Fin P.D × Fin 4 => wrap0 (fixed0 (P.muC q i.1)) (u .gamma i.1) i.2
  | .tau => fun k _ _ => if (show Fin 2 from k) = 0 then gammaPriorFixed P.at' else gammaFixed P.bt
  | .y => fun _ u q => wrap0 (dotMoments (u .c q.1) (chainToGaussian (u .x ()) q.2)) (u .tau ())

/-- the messages which arrive at a node; the sums over the plates of the child which the node does not have -/
noncomputable def ssBack : (c : SS) → (k : (ssFam P c).K) → (n : SS) → SSMoments P →
    (ssPlate P c → (ssFam P c).P k → ℝ) → ssPlate P n → (ssFam P n).I → ℝ
  | .y => fun _ n u m => match n with
    | .c => fun i => ∑ n : Fin (P.M + 1), dotMsg (wrap0MsgX (m (i, n)) (u .tau ())) (chainToGaussian (u .x ()) n)
    | .x => fun _ => chainToGaussianMsg fun n => ∑ i : Fin P.J, dotMsg (wrap0MsgX (m (i, n)) (u .tau ())) (u .c i)
    | .tau => fun _ => ∑ q : Fin P.J × Fin (P.M + 1),
        wrap0MsgT (m q) (dotMoments (u .c q.1) (chainToGaussian (u .x ()) q.2))
    | .alpha => fun _ _ => 0
    | .a => fun _ _ => 0
    | .gamma => fun _ _ => 0
    | .y => fun _ _ => 0
  | .a => fun _ n _ m => match n with
    | .alpha => fun j => ∑ d : Fin P.D, wrap0MsgT (fun k => m d (j, k)) (fixed0 (P.muA d j))
    | .a => fun _ _ => 0
    | .x => fun _ _ => 0
    | .gamma => fun _ _ => 0
    | .c => fun _ _ => 0
    | .tau => fun _ _ => 0
    | .y => fun _ _ => 0
  | .x => fun k n _ => match (show Fin 3 from k) with
    | 0 => fun _ _ _ => 0
    | 1 => fun m => match n with
      | .a => fun d => dynMsg (m ()) d
      | .alpha => fun _ _ => 0
      | .x => fun _ _ => 0
      | .gamma => fun _ _ => 0
      | .c => fun _ _ => 0
      | .tau => fun _ _ => 0
      | .y => fun _ _ => 0
    | 2 => fun _ _ _ => 0
  | .c => fun _ n _ m => match n with
    | .gamma => fun d => ∑ i : Fin P.J, wrap0MsgT (fun j => m i (d, j)) (fixed0 (P.muC i d))
    | .alpha => fun _ _ => 0
    | .a => fun _ _ => 0
    | .x => fun _ _ => 0
    | .c => fun _ _ => 0
    | .tau => fun _ _ => 0
    | .y => fun _ _ => 0
  | .alpha => fun _ _ _ _ _ _ => 0
  | .gamma => fun _ _ _ _ _ _ => 0
  | .tau => fun _ _ _ _ _ _ => 0

/-- the masks which `observe` propagates: a node is used where one of its children is (C33) -/
def ssMask : (n : SS) → ssPlate P n → Bool
  | .alpha => fun _ => decide (0 < P.D ∧ 0 < P.M ∧ ∃ i j, P.mask i j = true)
  | .a => fun _ => decide (0 < P.M ∧ ∃ i j, P.mask i j = true)
  | .x => fun _ => decide (∃ i j, P.mask i j = true)
  | .gamma => fun _ => decide (∃ i j, P.mask i j = true)
  | .c => fun i => decide (∃ j, P.mask i j = true)
  | .tau => fun _ => decide (∃ i j, P.mask i j = true)
  | .y => fun q => P.mask q.1 q.2

def ssObserved : (n : SS) → ssPlate P n → Bool
  | .y => fun q => P.mask q.1 q.2
  | .alpha => fun _ => false
  | .a => fun _ => false
  | .x => fun _ => false
  | .gamma => fun _ => false
  | .c => fun _ => false
  | .tau => fun _ => false

noncomputable def ssNet : Net where
  N := SS
  fam := ssFam P
  plate := ssPlate P
  ann := fun _ => 1
  bias := fun _ _ _ => 0
  observed := ssObserved P
  mask := ssMask P
  slot := ssSlot P
  back := ssBack P

end Verif
