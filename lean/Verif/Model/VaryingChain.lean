import Verif.Model.GaussianChain

/-!
# Model of the Gaussian Markov chains with varying and switching dynamics, `gaussian_markov_chain.py` lines 930-1133, 1454-1675

One chain with `M + 1` states of dimension `D`.  The code has messages only to the dynamics and their weights; the messages
to the initial state and to the noise raise `NotImplementedError`, and a noise that varies in time raises an exception, so
`v` and `logv` have the row index only.  Arrays that use broadcasting are written out in full.
-/

namespace Verif
open Matrix

section
variable {M D : Nat} {κ : Type} [Fintype κ]

/-- what both chains have in common: from the first state and the precision of the noise; `BvB m` is the expected
`A_m^T V A_m`, `vB m j i` the expected element `(j, i)` of `V A_m` -/
noncomputable def dynPhi (mu : GIx (Fin D) → ℝ) (L : WIx (Fin D) → ℝ) (v : Fin D → ℝ) (BvB : Fin M → Fin D → Fin D → ℝ)
    (vB : Fin M → Fin D → Fin D → ℝ) : GMCIx M D → ℝ :=
  mkC
    (fun n i => Fin.cases (motive := fun _ => ℝ) (∑ k, w0 L i k * g0 mu k) (fun _ => 0) n)
    (fun n => of fun i j => -0.5 * (Fin.cases (motive := fun _ => ℝ) (w0 L i j) (fun _ => if i = j then v i else 0) n
      + Fin.lastCases (motive := fun _ => ℝ) 0 (fun m => BvB m i j) n))
    (fun m => of fun i j => vB m j i)

/-- `_compute_cgf_for_gaussian_markov_chain`, lines 251-267, as called in lines 1124-1133 and 1666-1675 -/
noncomputable def dynCgf (M : Nat) (mu : GIx (Fin D) → ℝ) (L : WIx (Fin D) → ℝ) (logv : Fin D → ℝ) : ℝ :=
  -0.5 * (∑ i, ∑ j, w0 L i j * g1 mu i j) + (0.5 * w1 L + 0.5 * M * ∑ d, logv d)

/-! ### varying dynamics: `A_n = ∑ k, s_nk B_k` -/

/-- `[B, B B^T]` for every row -/
abbrev VaryIx (D : Nat) (κ : Type) := (Fin D × Fin D × κ) ⊕ (Fin D × Fin D × κ × Fin D × κ)

def vb0 (b : VaryIx D κ → ℝ) (d i : Fin D) (k : κ) : ℝ := b (.inl (d, i, k))
def vb1 (b : VaryIx D κ → ℝ) (d i : Fin D) (k : κ) (j : Fin D) (l : κ) : ℝ := b (.inr (d, i, k, j, l))

/-- `compute_phi_from_parents`, lines 1047-1122 -/
noncomputable def varyPhi (mu : GIx (Fin D) → ℝ) (L : WIx (Fin D) → ℝ) (v : Fin D → ℝ) (b : VaryIx D κ → ℝ)
    (s : InpIx M κ → ℝ) : GMCIx M D → ℝ :=
  dynPhi mu L v (fun m i j => ∑ k, ∑ l, (∑ d, vb1 b d i k j l * v d) * i1 s m k l)
    (fun m j i => ∑ k, vb0 b j i k * i0 s m k * v j)

/-- `compute_message_to_parent`, lines 962-987 -/
noncomputable def varyMsgB (v : Fin D → ℝ) (u : GMCIx M D → ℝ) (s : InpIx M κ → ℝ) : VaryIx D κ → ℝ :=
  Sum.elim (fun p => match p with | (i, j, k) => ∑ n, c2 u n j i * i0 s n k * v i)
    (fun p => match p with | (d, i, k, j, l) => -0.5 * ((∑ n : Fin M, c1 u n.castSucc i j * i1 s n k l) * v d))

/-- lines 989-1011 -/
noncomputable def varyMsgS (v : Fin D → ℝ) (u : GMCIx M D → ℝ) (b : VaryIx D κ → ℝ) : InpIx M κ → ℝ :=
  Sum.elim (fun p => match p with | (n, k) => ∑ i, ∑ j, c2 u n j i * vb0 b i j k * v i)
    (fun p => match p with
      | (n, k, l) => -0.5 * ∑ i, ∑ j, c1 u n.castSucc i j * ∑ d, vb1 b d i k j l * v d)

/-- the moments of fixed matrices, row by row, `B d i k` is the element `(d, i)` of matrix `k` -/
def varyFixed (B : Fin D → Fin D → κ → ℝ) : VaryIx D κ → ℝ :=
  Sum.elim (fun p => B p.1 p.2.1 p.2.2) fun p => B p.1 p.2.1 p.2.2.1 * B p.1 p.2.2.2.1 p.2.2.2.2

/-! ### switching dynamics: `A_n = B_{z_n}` -/

/-- `[B, B B^T]` for every matrix and row -/
abbrev SwitchIx (D : Nat) (κ : Type) := (κ × Fin D × Fin D) ⊕ (κ × Fin D × Fin D × Fin D)

def sb0 (b : SwitchIx D κ → ℝ) (k : κ) (d i : Fin D) : ℝ := b (.inl (k, d, i))
def sb1 (b : SwitchIx D κ → ℝ) (k : κ) (d i j : Fin D) : ℝ := b (.inr (k, d, i, j))

/-- `compute_phi_from_parents`, lines 1583-1664 -/
noncomputable def switchPhi (mu : GIx (Fin D) → ℝ) (L : WIx (Fin D) → ℝ) (v : Fin D → ℝ) (b : SwitchIx D κ → ℝ)
    (z : Fin M × κ → ℝ) : GMCIx M D → ℝ :=
  dynPhi mu L v (fun m i j => ∑ k, (∑ d, sb1 b k d i j * v d) * z (m, k))
    (fun m j i => ∑ k, sb0 b k j i * z (m, k) * v j)

/-- `compute_message_to_parent`, lines 1492-1517 -/
noncomputable def switchMsgB (v : Fin D → ℝ) (u : GMCIx M D → ℝ) (z : Fin M × κ → ℝ) : SwitchIx D κ → ℝ :=
  Sum.elim (fun p => match p with | (k, i, j) => ∑ n, c2 u n j i * z (n, k) * v i)
    (fun p => match p with | (k, d, i, j) => -0.5 * ((∑ n : Fin M, c1 u n.castSucc i j * z (n, k)) * v d))

/-- lines 1519-1557 -/
noncomputable def switchMsgZ (v logv : Fin D → ℝ) (u : GMCIx M D → ℝ) (b : SwitchIx D κ → ℝ) : Fin M × κ → ℝ
  | (n, k) => -0.5 * (∑ i, c1 u n.succ i i * v i) + (∑ i, ∑ l, c2 u n i l * v l * sb0 b k l i)
      - 0.5 * (∑ i, ∑ j, c1 u n.castSucc i j * ∑ d, sb1 b k d i j * v d)
      + 0.5 * (∑ d, logv d) - 0.5 * D * Real.log (2 * Real.pi)

def switchFixed (B : κ → Fin D → Fin D → ℝ) : SwitchIx D κ → ℝ :=
  Sum.elim (fun p => B p.1 p.2.1 p.2.2) fun p => B p.1 p.2.1 p.2.2.1 * B p.1 p.2.1 p.2.2.2

end

end Verif
