import Verif.Model.Families
import Verif.Model.Convert

/-!
# Factor analysis as a network

The model of the examples on principal component analysis in the documentation (`doc/source/examples/pca.rst`, where `W` is called `C`), with
`M` rows, `N` columns and `D` factors, any constant prior means and any missing values:

    alpha = Gamma(a0, b0, plates=(D,))
    W = GaussianARD(muW, alpha, shape=(D,), plates=(M, 1))
    X = GaussianARD(muX, alphaX, shape=(D,), plates=(1, N))
    tau = Gamma(at, bt)
    Y = GaussianARD(SumMultiply('d,d->', W, X), tau)
    Y.observe(data, mask=mask)

Unit plate axes are left out.
-/

namespace Verif

/-- the stochastic nodes -/
inductive FA
  | alpha
  | w
  | x
  | tau
  | y
  deriving DecidableEq

instance : Fintype FA := ⟨{.alpha, .w, .x, .tau, .y}, by intro x; cases x <;> decide⟩

structure FAParams where
  M : ℕ
  N : ℕ
  D : ℕ
  a0 : Fin D → ℝ
  b0 : Fin D → ℝ
  muW : Fin M → Fin D → ℝ
  muX : Fin N → Fin D → ℝ
  alphaX : Fin N → Fin D → ℝ
  at' : ℝ
  bt : ℝ
  mask : Fin M → Fin N → Bool

/-- `WrapToGaussianGamma._compute_moments` after `GaussianToGaussianGamma`, `gaussian.py` lines 2252-2258 and 2339-2348,
for scalars: the moments `[x, xx, 1, 0]` and `[alpha, log alpha]` -/
def wrap0 (x t : Fin 2 → ℝ) : Fin 4 → ℝ := ![x 0 * t 0, x 1 * t 0, 1 * t 0, 0 + t 1]

/-- their messages, lines 2264-2272 and 2351-2371 -/
def wrap0MsgX (m : Fin 4 → ℝ) (t : Fin 2 → ℝ) : Fin 2 → ℝ := ![m 0 * t 0, m 1 * t 0]
def wrap0MsgT (m : Fin 4 → ℝ) (x : Fin 2 → ℝ) : Fin 2 → ℝ := ![m 0 * x 0 + m 1 * x 1 + m 2 * 1, m 3]

section
variable {ι : Type*} [Fintype ι]

/-- `SumMultiply('d,d->', W, X)`, `dot.py` lines 316-415, one plate: the moments of the inner product (see C18) -/
def dotMoments (w x : GIx ι → ℝ) : Fin 2 → ℝ := ![∑ d, g0 w d * g0 x d, ∑ d, ∑ e, g1 w d e * g1 x d e]

/-- and its message to one factor, given the moments of the other, lines 425-644 -/
def dotMsg (m : Fin 2 → ℝ) (x : GIx ι → ℝ) : GIx ι → ℝ := mkG (fun d => m 0 * g0 x d) fun d e => m 1 * g1 x d e

end

variable (P : FAParams)

noncomputable def faFam : FA → Family
  | .alpha => gammaFamily
  | .w => ardFamily (Fin P.D)
  | .x => ardFamily (Fin P.D)
  | .tau => gammaFamily
  | .y => ard0Family

def faPlate : FA → Type
  | .alpha => Fin P.D
  | .w => Fin P.M
  | .x => Fin P.N
  | .tau => Unit
  | .y => Fin P.M × Fin P.N

instance : ∀ n, Fintype (faPlate P n)
  | .alpha => inferInstanceAs (Fintype (Fin P.D))
  | .w => inferInstanceAs (Fintype (Fin P.M))
  | .x => inferInstanceAs (Fintype (Fin P.N))
  | .tau => inferInstanceAs (Fintype Unit)
  | .y => inferInstanceAs (Fintype (Fin P.M × Fin P.N))

abbrev FAMoments := (n : FA) → faPlate P n → (faFam P n).I → ℝ

/-- the moments of a constant -/
def fixed0 (x : ℝ) : Fin 2 → ℝ := ![x, x * x]

noncomputable def faSlot : (c : FA) → (k : (faFam P c).K) → FAMoments P → faPlate P c → (faFam P c).P k → ℝ
  | .alpha => fun k _ q => if (show Fin 2 from k) = 0 then gammaPriorFixed (P.a0 q) else gammaFixed (P.b0 q)
  | .w => fun _ u q => fun i : Fin P.D × Fin 4 => wrap0 (fixed0 (P.muW q i.1)) (u .alpha i.1) i.2
  | .x => fun _ _ q => fun i : Fin P.D × Fin 4 => wrap0 (fixed0 (P.muX q i.1)) (gammaFixed (P.alphaX q i.1)) i.2
  | .tau => fun k _ _ => if (show Fin 2 from k) = 0 then gammaPriorFixed P.at' else gammaFixed P.bt
  | .y => fun _ u q => wrap0 (dotMoments (u .w q.1) (u .x q.2)) (u .tau ())

/-- the messages which arrive at a node; the sums over the plates of the child which the node does not have -/
noncomputable def faBack : (c : FA) → (k : (faFam P c).K) → (n : FA) → FAMoments P →
    (faPlate P c → (faFam P c).P k → ℝ) → faPlate P n → (faFam P n).I → ℝ
  | .y => fun _ n u m => match n with
    | .w => fun i => ∑ j : Fin P.N, dotMsg (wrap0MsgX (m (i, j)) (u .tau ())) (u .x j)
    | .x => fun j => ∑ i : Fin P.M, dotMsg (wrap0MsgX (m (i, j)) (u .tau ())) (u .w i)
    | .tau => fun _ => ∑ q : Fin P.M × Fin P.N, wrap0MsgT (m q) (dotMoments (u .w q.1) (u .x q.2))
    | .alpha => fun _ _ => 0
    | .y => fun _ _ => 0
  | .w => fun _ n _ m => match n with
    | .alpha => fun d => ∑ i : Fin P.M, wrap0MsgT (fun j => m i (d, j)) (fixed0 (P.muW i d))
    | .w => fun _ _ => 0
    | .x => fun _ _ => 0
    | .tau => fun _ _ => 0
    | .y => fun _ _ => 0
  | .alpha => fun _ _ _ _ _ _ => 0
  | .x => fun _ _ _ _ _ _ => 0
  | .tau => fun _ _ _ _ _ _ => 0

/-- the masks which `observe` propagates: a node is used where one of its children is observed (C33) -/
def faMask : (n : FA) → faPlate P n → Bool
  | .alpha => fun _ => decide (∃ i j, P.mask i j = true)
  | .w => fun i => decide (∃ j, P.mask i j = true)
  | .x => fun j => decide (∃ i, P.mask i j = true)
  | .tau => fun _ => decide (∃ i j, P.mask i j = true)
  | .y => fun q => P.mask q.1 q.2

def faObserved : (n : FA) → faPlate P n → Bool
  | .y => fun q => P.mask q.1 q.2
  | .alpha => fun _ => false
  | .w => fun _ => false
  | .x => fun _ => false
  | .tau => fun _ => false

noncomputable def faNet : Net where
  N := FA
  fam := faFam P
  plate := faPlate P
  ann := fun _ => 1
  bias := fun _ _ _ => 0
  observed := faObserved P
  mask := faMask P
  slot := faSlot P
  back := faBack P

end Verif
