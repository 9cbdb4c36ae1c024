import Verif.Lemmas.MarkovChain
import Mathlib.Tactic.NormNum
import Mathlib.Data.Fintype.BigOperators

/-!
# C27, C28: posteriors of categorical Markov chains
-/

namespace Verif
open Spec

variable {D : Nat}

theorem exists_pos_of_sum2 {f : Fin D → Fin D → ℝ} (h : 0 < ∑ i, ∑ j, f i j) : ∃ i j, 0 < f i j := by
  by_contra hn
  push Not at hn
  exact absurd h (not_lt.2 (Finset.sum_nonpos fun i _ => Finset.sum_nonpos fun j _ => hn i j))

theorem mapM_finite (l : List Nat) (v : Nat → Fin D → Fin D → WithBot ℝ)
    (h : ∀ n ∈ l, 0 < ∑ i, ∑ j, expBot (v n i j)) :
    (l.mapM fun n => finite (lse2 (v n))) =
      some (l.map fun n => Real.log (∑ i, ∑ j, expBot (v n i j))) := by
  induction l with
  | nil => rfl
  | cons a l ih =>
    rw [List.mapM_cons, lse2_eq, finite_logBot, if_neg (h a (by simp)).ne',
      ih fun n hn => h n (by simp [hn])]
    rfl

/-- The result in terms of forward and backward sums. -/
theorem alphaBeta_eq (logp0 : Fin D → WithBot ℝ) (logP : Nat → Fin D → Fin D → WithBot ℝ) (N : Nat)
    (hN : 0 < N) (hZ : ∑ j, fw logp0 logP N j ≠ 0) :
    ∃ z0 zz, alphaBetaRecursion logp0 logP N =
        some (z0, zz, -Real.log (∑ j, fw logp0 logP N j)) ∧
      (∀ n < N, ∀ i j, zz n i j = fw logp0 logP n i * expP logP n i j * bw logP N (n + 1) j /
        ∑ j, fw logp0 logP N j) ∧
      ∀ i, z0 i = ∑ j, zz 0 i j := by
  set Z := ∑ j, fw logp0 logP N j with hZdef
  have hZpos : 0 < Z :=
    lt_of_le_of_ne (Finset.sum_nonneg fun i _ => fw_nonneg logp0 logP _ i) (Ne.symm hZ)
  have hpair : ∀ n < N,
      ∑ i, ∑ j, fw logp0 logP n i * expP logP n i j * bw logP N (n + 1) j = Z := by
    intro n hn
    have := fwd_bwd_pair (fun i => expBot (logp0 i)) (expP logP) (N - (n + 1)) n
    have h2 : n + 1 + (N - (n + 1)) = N := by omega
    rw [h2] at this
    exact this
  -- the forward loop
  rcases forwardLoop_spec logp0 logP N with ⟨_, s, hs, hinv⟩ | ⟨⟨n, hn, h0⟩, _⟩
  swap
  · exact absurd (fw_zero_mono logp0 logP (le_of_lt hn) h0) hZ
  -- the backward loop
  have hpos : ∀ n < N, ∃ i j, 0 < expP logP n i j * bw logP N (n + 1) j := by
    intro n hn
    obtain ⟨i, j, hij⟩ := exists_pos_of_sum2 (by rw [hpair n hn]; exact hZpos)
    refine ⟨i, j, ?_⟩
    rw [mul_assoc] at hij
    exact (pos_iff_pos_of_mul_pos hij).1 (lt_of_le_of_ne (fw_nonneg logp0 logP n i)
      (fun h => by rw [← h, zero_mul] at hij; exact lt_irrefl _ hij))
  obtain ⟨b, hb, hbinv⟩ := backwardLoop_spec logP N hN hpos
  have hNs : N - 1 + 1 = N := by omega
  -- the last normaliser
  have hlast := fwd_total logp0 logP hinv
  rw [hNs, ← hZdef] at hlast
  have hsc := (hinv.1 (N - 1) le_rfl).1
  -- the terms
  have hterm : ∀ n < N, ∃ K > 0, ∀ i j, expBot (s.1 n i + b n j + logP n i j) =
      fw logp0 logP n i * expP logP n i j * bw logP N (n + 1) j / K := by
    intro n hn
    obtain ⟨C, hC, hbn⟩ := hbinv n (Nat.zero_le n) hn
    obtain ⟨hA, han⟩ := hinv.1 n (by omega)
    refine ⟨scale logp0 logP n * C, mul_pos hA hC, fun i j => ?_⟩
    rw [expBot_add, expBot_add, han, hbn]
    unfold expP
    field_simp
  have htot : ∀ n < N, 0 < ∑ i, ∑ j, expBot (s.1 n i + b n j + logP n i j) := by
    intro n hn
    obtain ⟨K, hK, h⟩ := hterm n hn
    simp only [h, ← Finset.sum_div]
    rw [hpair n hn]
    exact div_pos hZpos hK
  have hmap := mapM_finite (List.range N) (fun n i j => s.1 n i + b n j + logP n i j)
    (fun n hn => htot n (List.mem_range.1 hn))
  have hzz : ∀ n < N, ∀ i j,
      expBot (addBot (-(((List.range N).map fun n =>
          Real.log (∑ i, ∑ j, expBot (s.1 n i + b n j + logP n i j))).getD n 0))
        (s.1 n i + b n j + logP n i j)) =
      fw logp0 logP n i * expP logP n i j * bw logP N (n + 1) j / Z := by
    intro n hn i j
    obtain ⟨K, hK, h⟩ := hterm n hn
    have hget : ((List.range N).map fun n =>
        Real.log (∑ i, ∑ j, expBot (s.1 n i + b n j + logP n i j))).getD n 0 =
        Real.log (∑ i, ∑ j, expBot (s.1 n i + b n j + logP n i j)) := by
      rw [List.getD_eq_getElem?_getD, List.getElem?_map, List.getElem?_range hn]
      rfl
    rw [hget, expBot_shift (htot n hn), h i j]
    have : ∑ i, ∑ j, expBot (s.1 n i + b n j + logP n i j) = Z / K := by
      simp only [h, ← Finset.sum_div]
      rw [hpair n hn]
    rw [this]
    field_simp
  -- both normalisations divide by one
  have hone : ∀ n < N, (∑ i, ∑ j, fw logp0 logP n i * expP logP n i j * bw logP N (n + 1) j / Z) = 1 := by
    intro n hn
    simp only [← Finset.sum_div]
    rw [hpair n hn, div_self hZ]
  unfold alphaBetaRecursion
  simp only [hs, hb, Option.bind_eq_bind, Option.bind_some, lse2_eq, finite_logBot] at hmap ⊢
  rw [if_neg (by rw [hlast]; exact (div_pos hZpos hsc).ne')]
  simp only [Option.bind_some, hmap]
  have hz2 : ∀ n < N, ∀ i j, (expBot (addBot (-(((List.range N).map fun n =>
          Real.log (∑ i, ∑ j, expBot (s.1 n i + b n j + logP n i j))).getD n 0))
        (s.1 n i + b n j + logP n i j)) /
      ∑ k, ∑ l, expBot (addBot (-(((List.range N).map fun n =>
          Real.log (∑ i, ∑ j, expBot (s.1 n i + b n j + logP n i j))).getD n 0))
        (s.1 n k + b n l + logP n k l))) =
      fw logp0 logP n i * expP logP n i j * bw logP N (n + 1) j / Z := by
    intro n hn i j
    rw [hzz n hn i j]
    have : (∑ k, ∑ l, expBot (addBot (-(((List.range N).map fun n =>
          Real.log (∑ i, ∑ j, expBot (s.1 n i + b n j + logP n i j))).getD n 0))
        (s.1 n k + b n l + logP n k l))) = 1 := by
      rw [← hone n hn]
      exact Finset.sum_congr rfl fun k _ => Finset.sum_congr rfl fun l _ => hzz n hn k l
    rw [this, div_one]
  let zf : Nat → Fin D → Fin D → ℝ := fun n i j =>
    expBot (addBot (-(((List.range N).map fun n =>
          Real.log (∑ i, ∑ j, expBot (s.1 n i + b n j + logP n i j))).getD n 0))
        (s.1 n i + b n j + logP n i j)) /
      ∑ k, ∑ l, expBot (addBot (-(((List.range N).map fun n =>
          Real.log (∑ i, ∑ j, expBot (s.1 n i + b n j + logP n i j))).getD n 0))
        (s.1 n k + b n l + logP n k l))
  refine ⟨fun i => ∑ j, zf 0 i j, zf, ?_, hz2, fun i => rfl⟩
  have hst : ∑ i, ∑ j, zf 0 i j = 1 := by
    rw [← hone 0 hN]
    exact Finset.sum_congr rfl fun k _ => Finset.sum_congr rfl fun l _ => hz2 0 hN k l
  have hg : s.2 - Real.log (∑ i, ∑ j, expBot (s.1 (N - 1) i + logP (N - 1) i j)) = -Real.log Z := by
    rw [hlast, hinv.2, Real.log_div hZ hsc.ne']
    ring
  show some ((fun i => (∑ j, zf 0 i j) / ∑ k, ∑ l, zf 0 k l), zf, _) = _
  rw [hst, hg]
  simp only [div_one]

/-- `np.exp` of the potentials. -/
noncomputable def Spec.potential0 (logp0 : Fin D → WithBot ℝ) : Fin D → ℝ := fun i => expBot (logp0 i)

/-- `np.exp` of the potentials. -/
noncomputable def Spec.potential (logP : Nat → Fin D → Fin D → WithBot ℝ) :
    Nat → Fin D → Fin D → ℝ := fun n i j => expBot (logP n i j)

theorem sum_pairMarginal (p0 : Fin D → ℝ) (P : Nat → Fin D → Fin D → ℝ) (N : Nat) (n : Fin N)
    (i : Fin D) : ∑ j, pairMarginal p0 P N n i j = marginal p0 P N n.castSucc i := by
  unfold pairMarginal marginal
  rw [← Finset.sum_div, Finset.sum_comm]
  congr 1
  refine Finset.sum_congr rfl fun z _ => ?_
  by_cases h : z n.castSucc = i
  · simp [h]
  · simp [h]

theorem sum_pairMarginal' (p0 : Fin D → ℝ) (P : Nat → Fin D → Fin D → ℝ) (N : Nat) (n : Fin N)
    (j : Fin D) : ∑ i, pairMarginal p0 P N n i j = marginal p0 P N n.succ j := by
  unfold pairMarginal marginal
  rw [← Finset.sum_div, Finset.sum_comm]
  congr 1
  refine Finset.sum_congr rfl fun z _ => ?_
  by_cases h : z n.succ = j
  · simp [h]
  · simp [h]

/-- **C27** If any state sequence has a positive weight, the recursion returns the exact marginals of
the first state, the exact pairwise posteriors, and minus the logarithm of the normaliser, as defined
by sums over all `D^(N+1)` state sequences.  Potentials may be zero (`-inf`). -/
theorem C27_exact (logp0 : Fin D → WithBot ℝ) (logP : Nat → Fin D → Fin D → WithBot ℝ) (N : Nat)
    (hN : 0 < N) (hZ : normaliser (potential0 logp0) (potential logP) N ≠ 0) :
    ∃ z0 zz g, alphaBetaRecursion logp0 logP N = some (z0, zz, g) ∧
      g = -Real.log (normaliser (potential0 logp0) (potential logP) N) ∧
      (∀ i, z0 i = marginal (potential0 logp0) (potential logP) N 0 i) ∧
      ∀ (n : Fin N) i j, zz n i j = pairMarginal (potential0 logp0) (potential logP) N n i j := by
  have hnorm : normaliser (potential0 logp0) (potential logP) N = ∑ j, fw logp0 logP N j :=
    normaliser_eq _ _ _
  rw [hnorm] at hZ
  obtain ⟨z0, zz, h, hzz, hz0⟩ := alphaBeta_eq logp0 logP N hN hZ
  have hp : ∀ (n : Fin N) i j, zz n i j = pairMarginal (potential0 logp0) (potential logP) N n i j := by
    intro n i j
    rw [hzz n n.2]
    unfold pairMarginal
    rw [hnorm, sum_paths_pair]
    rfl
  refine ⟨z0, zz, _, h, by rw [hnorm], fun i => ?_, hp⟩
  rw [hz0]
  have h0 := sum_pairMarginal (potential0 logp0) (potential logP) N ⟨0, hN⟩ i
  have : (⟨0, hN⟩ : Fin N).castSucc = 0 := rfl
  rw [this] at h0
  rw [← h0]
  exact Finset.sum_congr rfl fun j _ => hp ⟨0, hN⟩ i j

/-- **C27** If no state sequence has a positive weight, there is no posterior, and the code computes
NaN. -/
theorem C27_no_posterior (logp0 : Fin D → WithBot ℝ) (logP : Nat → Fin D → Fin D → WithBot ℝ) (N : Nat)
    (hN : 0 < N) (hZ : normaliser (potential0 logp0) (potential logP) N = 0) :
    alphaBetaRecursion logp0 logP N = none := by
  have hnorm : normaliser (potential0 logp0) (potential logP) N = ∑ j, fw logp0 logP N j :=
    normaliser_eq _ _ _
  rw [hnorm] at hZ
  unfold alphaBetaRecursion
  rcases forwardLoop_spec logp0 logP N with ⟨_, s, hs, hinv⟩ | ⟨_, hnone⟩
  · have hlast := fwd_total logp0 logP hinv
    have hNs : N - 1 + 1 = N := by omega
    rw [hNs, hZ, zero_div] at hlast
    simp only [hs, Option.bind_eq_bind, Option.bind_some, lse2_eq, finite_logBot, hlast, if_pos]
    rfl
  · rw [hnone]; rfl

/-- For finite log-potentials there always is a posterior. -/
theorem C27_finite (p0 : Fin D → ℝ) (P : Nat → Fin D → Fin D → ℝ) (N : Nat) (hD : 0 < D) :
    normaliser (potential0 fun i => (p0 i : WithBot ℝ))
      (potential fun n i j => (P n i j : WithBot ℝ)) N ≠ 0 := by
  apply ne_of_gt
  have : Nonempty (Fin D) := ⟨⟨0, hD⟩⟩
  refine Finset.sum_pos (fun z _ => ?_) Finset.univ_nonempty
  unfold pathWeight
  refine mul_pos (Real.exp_pos _) (Finset.prod_pos fun n _ => Real.exp_pos _)

/-! ### C28 -/

/-- **C28** The pairwise tables are non-negative, sum to one, and agree about the state between them;
the first agrees with the marginal of the first state. -/
theorem C28_consistent (logp0 : Fin D → WithBot ℝ) (logP : Nat → Fin D → Fin D → WithBot ℝ) (N : Nat)
    (hN : 0 < N) (z0 : Fin D → ℝ) (zz : Nat → Fin D → Fin D → ℝ) (g : ℝ)
    (h : alphaBetaRecursion logp0 logP N = some (z0, zz, g)) :
    (∀ n < N, (∀ i j, 0 ≤ zz n i j) ∧ ∑ i, ∑ j, zz n i j = 1) ∧
    (∀ n, n + 1 < N → ∀ j, ∑ i, zz n i j = ∑ k, zz (n + 1) j k) ∧
    (∀ i, z0 i = ∑ j, zz 0 i j) := by
  have hZ : normaliser (potential0 logp0) (potential logP) N ≠ 0 := by
    intro h0
    rw [C27_no_posterior logp0 logP N hN h0] at h
    cases h
  obtain ⟨z0', zz', g', h', _, hz0, hzz⟩ := C27_exact logp0 logP N hN hZ
  rw [h] at h'
  injection h' with h'
  injection h' with h1 h'
  injection h' with h2 _
  subst h1 h2
  have hnn : ∀ z, 0 ≤ pathWeight (potential0 logp0) (potential logP) N z := fun z =>
    mul_nonneg (expBot_nonneg _) (Finset.prod_nonneg fun n _ => expBot_nonneg _)
  have hpos : 0 < normaliser (potential0 logp0) (potential logP) N :=
    lt_of_le_of_ne (Finset.sum_nonneg fun z _ => hnn z) (Ne.symm hZ)
  refine ⟨fun n hn => ⟨fun i j => ?_, ?_⟩, fun n hn j => ?_, fun i => ?_⟩
  · have := hzz ⟨n, hn⟩ i j
    rw [this]
    refine div_nonneg (Finset.sum_nonneg fun z _ => ?_) hpos.le
    split
    · exact hnn z
    · exact le_rfl
  · have : ∀ i, ∑ j, zz n i j =
        marginal (potential0 logp0) (potential logP) N (⟨n, hn⟩ : Fin N).castSucc i := by
      intro i
      rw [← sum_pairMarginal]
      exact Finset.sum_congr rfl fun j _ => hzz ⟨n, hn⟩ i j
    simp only [this]
    unfold marginal
    rw [← Finset.sum_div, Finset.sum_comm]
    simp only [Finset.sum_ite_eq, Finset.mem_univ, if_true]
    exact div_self hZ
  · have h1 := sum_pairMarginal' (potential0 logp0) (potential logP) N ⟨n, by omega⟩ j
    have h2 := sum_pairMarginal (potential0 logp0) (potential logP) N ⟨n + 1, hn⟩ j
    have e : (⟨n, by omega⟩ : Fin N).succ = (⟨n + 1, hn⟩ : Fin N).castSucc := rfl
    rw [e] at h1
    rw [← h2] at h1
    rw [Finset.sum_congr rfl fun i _ => hzz ⟨n, by omega⟩ i j, h1]
    exact (Finset.sum_congr rfl fun k _ => hzz ⟨n + 1, hn⟩ j k).symm
  · rw [hz0]
    have h2 := sum_pairMarginal (potential0 logp0) (potential logP) N ⟨0, hN⟩ i
    have e : (⟨0, hN⟩ : Fin N).castSucc = 0 := rfl
    rw [e] at h2
    rw [← h2]
    exact (Finset.sum_congr rfl fun k _ => hzz ⟨0, hN⟩ i k).symm

/-- **C28** The categorical moments are the exact marginals of all `N + 1` states, and proper. -/
theorem C28_to_categorical (logp0 : Fin D → WithBot ℝ) (logP : Nat → Fin D → Fin D → WithBot ℝ)
    (N : Nat) (hN : 0 < N) (z0 : Fin D → ℝ) (zz : Nat → Fin D → Fin D → ℝ) (g : ℝ)
    (h : alphaBetaRecursion logp0 logP N = some (z0, zz, g)) (t : Fin (N + 1)) :
    (∀ i, cmcToCategorical z0 zz t i = marginal (potential0 logp0) (potential logP) N t i) ∧
    (∀ i, 0 ≤ cmcToCategorical z0 zz t i) ∧ ∑ i, cmcToCategorical z0 zz t i = 1 := by
  have hZ : normaliser (potential0 logp0) (potential logP) N ≠ 0 := by
    intro h0
    rw [C27_no_posterior logp0 logP N hN h0] at h
    cases h
  obtain ⟨hc1, hc2, hc3⟩ := C28_consistent logp0 logP N hN z0 zz g h
  obtain ⟨z0', zz', g', h', _, hz0, hzz⟩ := C27_exact logp0 logP N hN hZ
  rw [h] at h'
  injection h' with h'
  injection h' with h1 h'
  injection h' with h2 _
  subst h1 h2
  refine Fin.cases ?_ (fun n => ?_) t
  · refine ⟨hz0, fun i => ?_, ?_⟩
    · show 0 ≤ z0 i
      rw [hc3]
      exact Finset.sum_nonneg fun j _ => (hc1 0 hN).1 i j
    · show ∑ i, z0 i = 1
      simp only [hc3]
      exact (hc1 0 hN).2
  · refine ⟨fun j => ?_, fun j => ?_, ?_⟩
    · show ∑ i, zz n i j = _
      rw [← sum_pairMarginal']
      exact Finset.sum_congr rfl fun i _ => hzz n i j
    · exact Finset.sum_nonneg fun i _ => (hc1 n n.2).1 i j
    · show ∑ j, ∑ i, zz n i j = 1
      rw [Finset.sum_comm]
      exact (hc1 n n.2).2

/-- A chain with two states and two transitions, one of which is impossible: the state stays at 0 or
moves from 0 to 1 and stays there. -/
noncomputable def demoLogP : Nat → Fin 2 → Fin 2 → WithBot ℝ := fun _ i j =>
  if i = 1 ∧ j = 0 then ⊥ else ((0 : ℝ) : WithBot ℝ)

/-- Three of the state sequences starting at 0 are possible, all equally probable. -/
example : normaliser (potential0 fun i : Fin 2 => if i = 0 then ((0 : ℝ) : WithBot ℝ) else ⊥)
    (potential demoLogP) 2 = 3 := by
  rw [normaliser_eq]
  simp [fwd, potential0, potential, demoLogP, Fin.sum_univ_two, expBot]
  norm_num

end Verif
