import Verif.Model.GaussianDist
import Verif.Model.BlockBandedSolve
import Verif.Model.Network

/-!
# Model of the Gaussian Markov chain, `gaussian_markov_chain.py` lines 35-706

One chain with `M + 1` states of dimension `D` and input signals with index set `κ` (empty if there are none); arrays that
use broadcasting are written out in full.  Moments and parameters are `[x_n, x_n x_n^T, x_n x_{n+1}^T]`.
-/

namespace Verif
open Matrix

abbrev GMCIx (M D : Nat) := (Fin (M + 1) × Fin D) ⊕ (Fin (M + 1) × Fin D × Fin D) ⊕ (Fin M × Fin D × Fin D)

section
variable {M D : Nat}

/-- the three components of moments or parameters -/
def c0 (u : GMCIx M D → ℝ) (n : Fin (M + 1)) : Fin D → ℝ := fun i => u (.inl (n, i))
def c1 (u : GMCIx M D → ℝ) (n : Fin (M + 1)) : Matrix (Fin D) (Fin D) ℝ := fun i j => u (.inr (.inl (n, i, j)))
def c2 (u : GMCIx M D → ℝ) (n : Fin M) : Matrix (Fin D) (Fin D) ℝ := fun i j => u (.inr (.inr (n, i, j)))

def mkC (a : Fin (M + 1) → Fin D → ℝ) (A : Fin (M + 1) → Matrix (Fin D) (Fin D) ℝ) (B : Fin M → Matrix (Fin D) (Fin D) ℝ) :
    GMCIx M D → ℝ :=
  Sum.elim (fun p => a p.1 p.2) (Sum.elim (fun p => A p.1 p.2.1 p.2.2) fun p => B p.1 p.2.1 p.2.2)

/-- `GaussianMarkovChainMoments.compute_fixed_moments`, lines 44-48, and `compute_fixed_moments_and_f`, lines 128-138 -/
def gmcFixed (x : Fin (M + 1) → Fin D → ℝ) : GMCIx M D → ℝ :=
  mkC x (fun n => vecMulVec (x n) (x n)) fun n => vecMulVec (x n.castSucc) (x n.succ)

noncomputable def gmcF (M D : Nat) : ℝ := -0.5 * (M + 1) * D * Real.log (2 * Real.pi)

/-- the arguments of `block_banded_solve`, lines 106-112 -/
def gmcY (phi : GMCIx M D → ℝ) : Nat → Fin D → ℝ := fun n => if h : n < M + 1 then c0 phi ⟨n, h⟩ else 0
def gmcA (phi : GMCIx M D → ℝ) : Nat → Matrix (Fin D) (Fin D) ℝ := fun n =>
  if h : n < M + 1 then (-2 : ℝ) • c1 phi ⟨n, h⟩ else 0
def gmcB (phi : GMCIx M D → ℝ) : Nat → Matrix (Fin D) (Fin D) ℝ := fun n => if h : n < M then -c2 phi ⟨n, h⟩ else 0

noncomputable def gmcRun (phi : GMCIx M D → ℝ) : Except PyErr (BandState D) :=
  blockBandedSolve (M + 1) M (M + 1) (gmcA phi) (gmcB phi) (gmcY phi)

/-- `compute_moments_and_cgf`, lines 89-123 (zero if `block_banded_solve` raises) -/
noncomputable def gmcMoments (phi : GMCIx M D → ℝ) : GMCIx M D → ℝ :=
  match gmcRun phi with
  | .error _ => 0
  | .ok s => mkC (fun n => s.x n) (fun n => s.V n + vecMulVec (s.x n) (s.x n))
      fun n => s.C n + vecMulVec (s.x n) (s.x (n + 1))

/-- the second result -/
noncomputable def gmcCgf (phi : GMCIx M D → ℝ) : ℝ :=
  match gmcRun phi with
  | .error _ => 0
  | .ok s => -0.5 * (∑ n : Fin (M + 1), ∑ i, s.x n i * c0 phi n i) + 0.5 * s.ldet

end

/-! ### the parents -/

/-- `[nu A, nu A A^T, nu, log nu]` for every transition and row; a row of the dynamics matrix is indexed by the states and
the inputs -/
abbrev DynIx (M D : Nat) (κ : Type) :=
  (Fin M × Fin D × (Fin D ⊕ κ)) ⊕ (Fin M × Fin D × (Fin D ⊕ κ) × (Fin D ⊕ κ)) ⊕ (Fin M × Fin D) ⊕ (Fin M × Fin D)

/-- `[z_n, z_n z_n^T]` -/
abbrev InpIx (M : Nat) (κ : Type) := (Fin M × κ) ⊕ (Fin M × κ × κ)

section
variable {M D : Nat} {κ : Type} [Fintype κ]

def d0 (v : DynIx M D κ → ℝ) (n : Fin M) (d : Fin D) (j : Fin D ⊕ κ) : ℝ := v (.inl (n, d, j))
def d1 (v : DynIx M D κ → ℝ) (n : Fin M) (d : Fin D) (j k : Fin D ⊕ κ) : ℝ := v (.inr (.inl (n, d, j, k)))
def d2 (v : DynIx M D κ → ℝ) (n : Fin M) (d : Fin D) : ℝ := v (.inr (.inr (.inl (n, d))))
def d3 (v : DynIx M D κ → ℝ) (n : Fin M) (d : Fin D) : ℝ := v (.inr (.inr (.inr (n, d))))
def i0 (z : InpIx M κ → ℝ) (n : Fin M) (k : κ) : ℝ := z (.inl (n, k))
def i1 (z : InpIx M κ → ℝ) (n : Fin M) (k l : κ) : ℝ := z (.inr (n, k, l))

/-- `compute_phi_from_parents`, lines 542-627 -/
noncomputable def gmcPhi (v : GWIx (Fin D) → ℝ) (a : DynIx M D κ → ℝ) (z : InpIx M κ → ℝ) : GMCIx M D → ℝ :=
  mkC
    (fun n i => Fin.cases (motive := fun _ => ℝ) (gw0 v i) (fun m => ∑ k, d0 a m i (.inr k) * i0 z m k) n
      - Fin.lastCases (motive := fun _ => ℝ) 0 (fun m => ∑ k, (∑ d, d1 a m d (.inl i) (.inr k)) * i0 z m k) n)
    (fun n => of fun i j => Fin.cases (motive := fun _ => ℝ) (-0.5 * gw2 v i j)
        (fun m => -0.5 * if i = j then d2 a m i else 0) n
      + Fin.lastCases (motive := fun _ => ℝ) 0 (fun m => -0.5 * ∑ d, d1 a m d (.inl i) (.inl j)) n)
    (fun m => of fun i j => d0 a m j (.inl i))

/-- `compute_cgf_from_parents`, lines 629-657 -/
noncomputable def gmcCgfP (v : GWIx (Fin D) → ℝ) (a : DynIx M D κ → ℝ) (z : InpIx M κ → ℝ) : ℝ :=
  (-0.5 * gw1 v + (0.5 * gw3 v + 0.5 * ∑ m, ∑ d, d3 a m d))
    + ∑ m, -0.5 * ∑ k, ∑ l, i1 z m k l * ∑ d, d1 a m d (.inr k) (.inr l)

/-- `compute_message_to_parent`, lines 464-471: to the initial state -/
noncomputable def gmcMsg0 (u : GMCIx M D → ℝ) : GWIx (Fin D) → ℝ :=
  mkGW (c0 u 0) (-0.5) ((-0.5 : ℝ) • c1 u 0) 0.5

/-- lines 473-502: to the dynamics -/
noncomputable def gmcMsg1 (u : GMCIx M D → ℝ) (z : InpIx M κ → ℝ) : DynIx M D κ → ℝ :=
  Sum.elim
    (fun p => match p with
      | (m, d, .inl j) => c2 u m j d
      | (m, d, .inr k) => c0 u m.succ d * i0 z m k)
    (Sum.elim
      (fun p => match p with
        | (m, _, .inl i, .inl j) => -0.5 * c1 u m.castSucc i j
        | (m, _, .inl i, .inr k) => -0.5 * c0 u m.castSucc i * i0 z m k
        | (m, _, .inr k, .inl i) => -0.5 * c0 u m.castSucc i * i0 z m k
        | (m, _, .inr k, .inr l) => -0.5 * i1 z m k l)
      (Sum.elim (fun p => -0.5 * c1 u p.1.succ p.2 p.2) fun _ => 0.5))

/-- lines 505-527: to the inputs -/
noncomputable def gmcMsg2 (u : GMCIx M D → ℝ) (a : DynIx M D κ → ℝ) : InpIx M κ → ℝ :=
  Sum.elim
    (fun p => (∑ d, d0 a p.1 d (.inr p.2) * c0 u p.1.succ d)
      - ∑ i, (∑ d, d1 a p.1 d (.inl i) (.inr p.2)) * c0 u p.1.castSucc i)
    fun p => -0.5 * ∑ d, d1 a p.1 d (.inr p.2.1) (.inr p.2.2)

/-- Second moments of a dynamics matrix are symmetric; what is used is that between states and inputs. -/
def DynSymm (a : DynIx M D κ → ℝ) : Prop := ∀ m d i k, d1 a m d (.inr k) (.inl i) = d1 a m d (.inl i) (.inr k)

/-- the moments of a fixed dynamics matrix `W` (states and inputs) and fixed precisions -/
noncomputable def dynFixed (W : Fin M → Fin D → Fin D ⊕ κ → ℝ) (nu : Fin M → Fin D → ℝ) : DynIx M D κ → ℝ :=
  Sum.elim (fun p => nu p.1 p.2.1 * W p.1 p.2.1 p.2.2)
    (Sum.elim (fun p => nu p.1 p.2.1 * (W p.1 p.2.1 p.2.2.1 * W p.1 p.2.1 p.2.2.2))
      (Sum.elim (fun p => nu p.1 p.2) fun p => Real.log (nu p.1 p.2)))

def inpFixed (z : Fin M → κ → ℝ) : InpIx M κ → ℝ :=
  Sum.elim (fun p => z p.1 p.2) fun p => z p.1 p.2.1 * z p.1 p.2.2

end

/-! ### the class -/

section
variable (M D : Nat) (κ : Type) [Fintype κ]

/-- the second moments of the dynamics with the block of states and inputs made symmetric -/
noncomputable def dynSym {M D : Nat} {κ : Type} (a : DynIx M D κ → ℝ) : DynIx M D κ → ℝ :=
  Sum.elim (fun p => a (.inl p)) (Sum.elim
    (fun p => match p with
      | (m, d, .inl i, .inl j) => d1 a m d (.inl i) (.inl j)
      | (m, d, .inr k, .inr l) => d1 a m d (.inr k) (.inr l)
      | (m, d, j, k) => 0.5 * (d1 a m d j k + d1 a m d k j))
    fun p => a (.inr (.inr p)))

/-- the index sets of the parents of a Gaussian Markov chain -/
def GMCSlot : Fin 3 → Type
  | 0 => GWIx (Fin D)
  | 1 => DynIx M D κ
  | 2 => InpIx M κ

instance : ∀ k, Fintype (GMCSlot M D κ k)
  | 0 => inferInstanceAs (Fintype (GWIx (Fin D)))
  | 1 => inferInstanceAs (Fintype (DynIx M D κ))
  | 2 => inferInstanceAs (Fintype (InpIx M κ))

/-- `GaussianMarkovChainDistribution`.  The moments of the dynamics are used through `dynSym`, which does not change the
moments that occur (`dynSym_eq`). -/
noncomputable def gmcFamily : Family where
  I := GMCIx M D
  K := Fin 3
  P := GMCSlot M D κ
  phiP := fun pa => gmcPhi (pa 0 : GWIx (Fin D) → ℝ) (dynSym (pa 1 : DynIx M D κ → ℝ)) (pa 2 : InpIx M κ → ℝ)
  cgfP := fun pa => gmcCgfP (pa 0 : GWIx (Fin D) → ℝ) (dynSym (pa 1 : DynIx M D κ → ℝ)) (pa 2 : InpIx M κ → ℝ)
  msg := fun k u pa => match k with
    | 0 => gmcMsg0 u
    | 1 => gmcMsg1 u (pa 2 : InpIx M κ → ℝ)
    | 2 => gmcMsg2 u (dynSym (pa 1 : DynIx M D κ → ℝ))
  mom := gmcMoments
  cgf := gmcCgf

end

end Verif
