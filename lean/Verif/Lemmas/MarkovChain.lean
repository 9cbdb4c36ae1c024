import Mathlib.Tactic.Ring
import Mathlib.Algebra.BigOperators.Field
import Mathlib.Tactic.Linarith
import Mathlib.Tactic.Positivity
import Mathlib.Tactic.FieldSimp
import Verif.Model.MarkovChain
import Verif.Spec.MarkovChain
import Verif.Props.Utils

/-! # Lemmas about chains -/

namespace Verif
open Spec

variable {D : Nat}

/-! ### Sums over paths -/

/-- Forward sums. -/
noncomputable def fwd (p0 : Fin D → ℝ) (P : Nat → Fin D → Fin D → ℝ) : Nat → Fin D → ℝ
  | 0 => p0
  | n + 1 => fun j => ∑ i, fwd p0 P n i * P n i j

/-- Backward sums over `k` transitions from time `n` on. -/
noncomputable def bwd (P : Nat → Fin D → Fin D → ℝ) : Nat → Nat → Fin D → ℝ
  | 0, _ => fun _ => 1
  | k + 1, n => fun i => ∑ j, P n i j * bwd P k (n + 1) j

theorem pathWeight_snoc (p0 : Fin D → ℝ) (P : Nat → Fin D → Fin D → ℝ) (N : Nat)
    (z : Fin (N + 1) → Fin D) (j : Fin D) :
    pathWeight p0 P (N + 1) (Fin.snoc z j : Fin (N + 2) → Fin D) =
      pathWeight p0 P N z * P N (z (Fin.last N)) j := by
  unfold pathWeight
  rw [Fin.prod_univ_castSucc, ← mul_assoc]
  congr 1
  · have h0 : (Fin.snoc z j : Fin (N + 2) → Fin D) 0 = z 0 :=
      Fin.snoc_castSucc (α := fun _ => Fin D) j z 0
    rw [h0]
    congr 1
    · refine Finset.prod_congr rfl fun n _ => ?_
      rw [Fin.succ_castSucc, Fin.snoc_castSucc (α := fun _ => Fin D),
        Fin.snoc_castSucc (α := fun _ => Fin D)]
      rfl
  · rw [Fin.succ_last, Fin.snoc_last (α := fun _ => Fin D), Fin.snoc_castSucc (α := fun _ => Fin D)]
    rfl

theorem sum_paths (p0 : Fin D → ℝ) (P : Nat → Fin D → Fin D → ℝ) (N : Nat) (f : Fin D → ℝ) :
    ∑ z : Fin (N + 1) → Fin D, pathWeight p0 P N z * f (z (Fin.last N)) =
      ∑ j, fwd p0 P N j * f j := by
  induction N generalizing f with
  | zero =>
    rw [Fintype.sum_equiv (Equiv.funUnique (Fin 1) (Fin D))
      (fun z => pathWeight p0 P 0 z * f (z (Fin.last 0))) (fun j => fwd p0 P 0 j * f j)]
    intro z
    simp [pathWeight, fwd]
  | succ N ih =>
    rw [← (Fin.snocEquiv fun _ : Fin (N + 2) => Fin D).sum_comp, Fintype.sum_prod_type]
    have : ∀ (x : Fin D) (z : Fin (N + 1) → Fin D),
        pathWeight p0 P (N + 1) ((Fin.snocEquiv fun _ : Fin (N + 2) => Fin D) (x, z)) *
          f (((Fin.snocEquiv fun _ : Fin (N + 2) => Fin D) (x, z)) (Fin.last (N + 1))) =
        pathWeight p0 P N z * (P N (z (Fin.last N)) x * f x) := by
      intro x z
      have h := pathWeight_snoc p0 P N z x
      have h2 : (Fin.snoc z x : Fin (N + 2) → Fin D) (Fin.last (N + 1)) = x :=
        Fin.snoc_last (α := fun _ => Fin D) _ _
      show pathWeight p0 P (N + 1) (Fin.snoc z x : Fin (N + 2) → Fin D) *
        f ((Fin.snoc z x : Fin (N + 2) → Fin D) (Fin.last (N + 1))) = _
      rw [h, h2]
      ring
    simp only [this]
    have h2 : ∀ x : Fin D, ∑ z : Fin (N + 1) → Fin D,
        pathWeight p0 P N z * (P N (z (Fin.last N)) x * f x) =
        ∑ i, fwd p0 P N i * (P N i x * f x) := fun x => ih fun i => P N i x * f x
    simp only [h2]
    refine Finset.sum_congr rfl fun j _ => ?_
    simp only [fwd, Finset.sum_mul]
    exact Finset.sum_congr rfl fun i _ => by ring

theorem normaliser_eq (p0 : Fin D → ℝ) (P : Nat → Fin D → Fin D → ℝ) (N : Nat) :
    normaliser p0 P N = ∑ j, fwd p0 P N j := by
  have := sum_paths p0 P N fun _ => 1
  simpa [normaliser] using this

theorem fwd_bwd (p0 : Fin D → ℝ) (P : Nat → Fin D → Fin D → ℝ) (k n : Nat) :
    ∑ i, fwd p0 P n i * bwd P k n i = ∑ j, fwd p0 P (n + k) j := by
  induction k generalizing n with
  | zero => simp [bwd]
  | succ k ih =>
    have : n + (k + 1) = (n + 1) + k := by omega
    rw [this, ← ih (n + 1)]
    simp only [bwd, fwd, Finset.mul_sum, Finset.sum_mul]
    rw [Finset.sum_comm]
    exact Finset.sum_congr rfl fun j _ => Finset.sum_congr rfl fun i _ => by ring

theorem fwd_bwd_pair (p0 : Fin D → ℝ) (P : Nat → Fin D → Fin D → ℝ) (k n : Nat) :
    ∑ i, ∑ j, fwd p0 P n i * P n i j * bwd P k (n + 1) j = ∑ j, fwd p0 P (n + 1 + k) j := by
  rw [← fwd_bwd p0 P k (n + 1)]
  simp only [fwd, Finset.sum_mul]
  rw [Finset.sum_comm]

theorem fwd_congr (p0 : Fin D → ℝ) (P Q : Nat → Fin D → Fin D → ℝ) (n : Nat)
    (h : ∀ m < n, P m = Q m) : fwd p0 P n = fwd p0 Q n := by
  induction n with
  | zero => rfl
  | succ n ih =>
    funext j
    simp only [fwd]
    rw [ih fun m hm => h m (by omega), h n (by omega)]

theorem bwd_congr (P Q : Nat → Fin D → Fin D → ℝ) (k n : Nat) (h : ∀ m ≥ n, P m = Q m) :
    bwd P k n = bwd Q k n := by
  induction k generalizing n with
  | zero => rfl
  | succ k ih =>
    funext i
    simp only [bwd]
    rw [ih (n + 1) fun m hm => h m (by omega), h n (by omega)]

/-- The paths with two given consecutive states. -/
theorem sum_paths_pair (p0 : Fin D → ℝ) (P : Nat → Fin D → Fin D → ℝ) (N : Nat) (n : Fin N)
    (i j : Fin D) :
    (∑ z : Fin (N + 1) → Fin D,
      if z n.castSucc = i ∧ z n.succ = j then pathWeight p0 P N z else 0) =
    fwd p0 P n i * P n i j * bwd P (N - (n + 1)) (n + 1) j := by
  let Q : Nat → Fin D → Fin D → ℝ :=
    fun m => if m = n then fun a b => if a = i ∧ b = j then P n a b else 0 else P m
  have hQ : ∀ z : Fin (N + 1) → Fin D, pathWeight p0 Q N z =
      if z n.castSucc = i ∧ z n.succ = j then pathWeight p0 P N z else 0 := by
    intro z
    unfold pathWeight
    by_cases hz : z n.castSucc = i ∧ z n.succ = j
    · rw [if_pos hz]
      congr 1
      refine Finset.prod_congr rfl fun m _ => ?_
      by_cases hm : (m : Nat) = n
      · obtain rfl : m = n := Fin.ext hm
        simp only [Q, if_pos, hz.1, hz.2, and_self]
      · simp only [Q, if_neg hm]
    · rw [if_neg hz]
      have : ∏ m : Fin N, Q m (z m.castSucc) (z m.succ) = 0 :=
        Finset.prod_eq_zero (Finset.mem_univ n) (by simp only [Q, if_pos, if_neg hz])
      rw [this, mul_zero]
  have h1 : (∑ z : Fin (N + 1) → Fin D,
      if z n.castSucc = i ∧ z n.succ = j then pathWeight p0 P N z else 0) = normaliser p0 Q N := by
    unfold normaliser
    exact Finset.sum_congr rfl fun z _ => (hQ z).symm
  rw [h1, normaliser_eq]
  have h2 := fwd_bwd_pair p0 Q (N - (n + 1)) n
  have h3 : (n : Nat) + 1 + (N - (n + 1)) = N := by omega
  rw [h3] at h2
  rw [← h2, fwd_congr p0 Q P n (fun m hm => by simp only [Q, if_neg (Nat.ne_of_lt hm)]),
    bwd_congr Q P _ (n + 1) (fun m hm => by
      simp only [Q]; rw [if_neg]; omega)]
  rw [Finset.sum_eq_single i]
  · rw [Finset.sum_eq_single j]
    · simp [Q]
    · intro b _ hb; simp [Q, hb]
    · simp
  · intro a _ ha
    refine Finset.sum_eq_zero fun b _ => ?_
    simp [Q, ha]
  · simp

/-! ### Logarithms -/

theorem lse_eq (l : List (WithBot ℝ)) : lse l = logBot (l.map expBot).sum := by
  unfold lse
  by_cases h : l = []
  · subst h; simp [logsumexp, logBot]
  · rw [C43_logsumexp l h]

theorem expBot_logBot {x : ℝ} (hx : 0 ≤ x) : expBot (logBot x) = x := by
  unfold logBot
  split
  · rename_i h; rw [h]; rfl
  · rename_i h
    exact Real.exp_log (lt_of_le_of_ne hx (Ne.symm h))

theorem expBot_add (x y : WithBot ℝ) : expBot (x + y) = expBot x * expBot y := by
  cases x with
  | bot => simp [expBot]
  | coe x =>
    cases y with
    | bot => simp [expBot]
    | coe y => exact Real.exp_add x y

theorem sum_finRange {f : Fin D → ℝ} : ((List.finRange D).map f).sum = ∑ i, f i := by
  rw [← List.ofFn_eq_map, List.sum_ofFn]

theorem lse2_eq (v : Fin D → Fin D → WithBot ℝ) :
    lse2 v = logBot (∑ i, ∑ j, expBot (v i j)) := by
  unfold lse2
  have hsum : ∀ (l : List (Fin D)) (f : Fin D → List ℝ),
      (l.flatMap f).sum = (l.map fun i => (f i).sum).sum := by
    intro l f
    induction l with
    | nil => rfl
    | cons a l ih => simp [List.flatMap_cons, ih]
  rw [lse_eq, List.map_flatMap, hsum]
  simp only [List.map_map]
  congr 1

theorem expBot_lseRows (v : Fin D → Fin D → WithBot ℝ) (j : Fin D) :
    expBot (lseRows v j) = ∑ i, expBot (v i j) := by
  unfold lseRows
  rw [lse_eq, expBot_logBot (sum_expBot_nonneg _), List.map_map, ← sum_finRange]
  rfl

theorem expBot_lseCols (v : Fin D → Fin D → WithBot ℝ) (i : Fin D) :
    expBot (lseCols v i) = ∑ j, expBot (v i j) := by
  unfold lseCols
  rw [lse_eq, expBot_logBot (sum_expBot_nonneg _), List.map_map, ← sum_finRange]
  rfl

theorem finite_logBot (x : ℝ) : finite (logBot x) = if x = 0 then none else some (Real.log x) := by
  unfold logBot
  split <;> rfl

theorem sum2_expBot_nonneg (v : Fin D → Fin D → WithBot ℝ) : 0 ≤ ∑ i, ∑ j, expBot (v i j) :=
  Finset.sum_nonneg fun _ _ => Finset.sum_nonneg fun _ _ => expBot_nonneg _

theorem expBot_shift {x : ℝ} (hx : 0 < x) (y : WithBot ℝ) :
    expBot (addBot (-Real.log x) y) = expBot y / x := by
  rw [expBot_addBot, Real.exp_neg, Real.exp_log hx]
  field_simp

/-! ### The recursions -/

section
variable (logp0 : Fin D → WithBot ℝ) (logP : Nat → Fin D → Fin D → WithBot ℝ)

/-- The potentials. -/
noncomputable def expP : Nat → Fin D → Fin D → ℝ := fun n i j => expBot (logP n i j)

/-- Forward sums of the potentials. -/
noncomputable def fw (n : Nat) (i : Fin D) : ℝ := fwd (fun i => expBot (logp0 i)) (expP logP) n i

theorem fw_nonneg (n : Nat) (i : Fin D) : 0 ≤ fw logp0 logP n i := by
  unfold fw
  induction n generalizing i with
  | zero => exact expBot_nonneg _
  | succ n ih =>
    exact Finset.sum_nonneg fun k _ => mul_nonneg (ih k) (expBot_nonneg _)

/-- The total forward weight at time `n`, the scale of `logalpha[n]`. -/
noncomputable def scale (n : Nat) : ℝ := if n = 0 then 1 else ∑ i, fw logp0 logP n i

theorem fw_succ_sum (n : Nat) :
    ∑ i, ∑ j, fw logp0 logP n i * expP logP n i j = ∑ j, fw logp0 logP (n + 1) j := by
  rw [Finset.sum_comm]
  rfl

theorem fw_zero_mono {n m : Nat} (h : n ≤ m) (h0 : ∑ i, fw logp0 logP n i = 0) :
    ∑ i, fw logp0 logP m i = 0 := by
  induction h with
  | refl => exact h0
  | step _ ih =>
    rename_i m _
    rw [← fw_succ_sum]
    have : ∀ i ∈ Finset.univ, fw logp0 logP m i = 0 :=
      (Finset.sum_eq_zero_iff_of_nonneg fun i _ => fw_nonneg logp0 logP m i).1 ih
    refine Finset.sum_eq_zero fun i hi => Finset.sum_eq_zero fun j _ => ?_
    rw [this i hi, zero_mul]

/-- What the forward loop has computed after step `k`. -/
def FwdInv (k : Nat) (s : (Nat → Fin D → WithBot ℝ) × ℝ) : Prop :=
  (∀ n ≤ k, 0 < scale logp0 logP n ∧
    ∀ i, expBot (s.1 n i) = fw logp0 logP n i / scale logp0 logP n) ∧
  s.2 = -Real.log (scale logp0 logP k)

/-- The total of `alpha[n] * P[n]`. -/
theorem fwd_total {k : Nat} {s : (Nat → Fin D → WithBot ℝ) × ℝ} (h : FwdInv logp0 logP k s) :
    ∑ i, ∑ j, expBot (s.1 k i + logP k i j) =
      (∑ j, fw logp0 logP (k + 1) j) / scale logp0 logP k := by
  rw [← fw_succ_sum, Finset.sum_div]
  refine Finset.sum_congr rfl fun i _ => ?_
  rw [Finset.sum_div]
  refine Finset.sum_congr rfl fun j _ => ?_
  rw [expBot_add, (h.1 k le_rfl).2 i]
  unfold expP
  ring

theorem forwardStep_spec {k : Nat} {s : (Nat → Fin D → WithBot ℝ) × ℝ}
    (h : FwdInv logp0 logP k s) :
    (∑ j, fw logp0 logP (k + 1) j = 0 → forwardStep logP s (k + 1) = none) ∧
    (∑ j, fw logp0 logP (k + 1) j ≠ 0 →
      ∃ s', forwardStep logP s (k + 1) = some s' ∧ FwdInv logp0 logP (k + 1) s') := by
  have htot := fwd_total logp0 logP h
  have hs := (h.1 k le_rfl).1
  have hlse : lse2 (fun i j => s.1 (k + 1 - 1) i + logP (k + 1 - 1) i j) =
      logBot ((∑ j, fw logp0 logP (k + 1) j) / scale logp0 logP k) := by
    rw [lse2_eq, Nat.add_sub_cancel, htot]
  constructor
  · intro h0
    unfold forwardStep
    simp only [hlse, h0, zero_div, finite_logBot, if_pos]
    rfl
  · intro h0
    have hpos : 0 < ∑ j, fw logp0 logP (k + 1) j :=
      lt_of_le_of_ne (Finset.sum_nonneg fun i _ => fw_nonneg logp0 logP _ i) (Ne.symm h0)
    have hc : 0 < (∑ j, fw logp0 logP (k + 1) j) / scale logp0 logP k := div_pos hpos hs
    have hsc : scale logp0 logP (k + 1) = ∑ j, fw logp0 logP (k + 1) j := by
      unfold scale; rw [if_neg (by omega)]
    unfold forwardStep
    simp only [hlse, finite_logBot, if_neg hc.ne']
    refine ⟨_, rfl, ?_, ?_⟩
    · intro n hn
      by_cases hnk : n = k + 1
      · subst hnk
        rw [hsc]
        refine ⟨hpos, fun j => ?_⟩
        simp only [Function.update_self]
        rw [expBot_lseRows]
        simp only [expBot_shift hc, Nat.add_sub_cancel, expBot_add]
        rw [← Finset.sum_div]
        have : ∑ i, expBot (s.1 k i) * expBot (logP k i j) =
            fw logp0 logP (k + 1) j / scale logp0 logP k := by
          show _ = (∑ i, fw logp0 logP k i * expP logP k i j) / _
          rw [Finset.sum_div]
          refine Finset.sum_congr rfl fun i _ => ?_
          rw [(h.1 k le_rfl).2 i]
          unfold expP
          ring
        rw [this]
        field_simp
      · simp only [Function.update_of_ne hnk]
        exact h.1 n (by omega)
    · show s.2 - Real.log _ = _
      rw [h.2, Real.log_div hpos.ne' hs.ne', hsc]
      ring

theorem forwardLoop_spec (N : Nat) :
    (∀ n < N, 0 < n → ∑ j, fw logp0 logP n j ≠ 0) ∧
        (∃ s, forwardLoop logp0 logP N = some s ∧ FwdInv logp0 logP (N - 1) s) ∨
      (∃ n < N, ∑ j, fw logp0 logP n j = 0) ∧ forwardLoop logp0 logP N = none := by
  have key : ∀ k, (∀ n ≤ k, 0 < n → ∑ j, fw logp0 logP n j ≠ 0) ∧
        (∃ s, (List.range' 1 k).foldlM (forwardStep logP)
          (Function.update (fun _ _ => ((0 : ℝ) : WithBot ℝ)) 0 logp0, 0) = some s ∧
          FwdInv logp0 logP k s) ∨
      (∃ n ≤ k, 0 < n ∧ ∑ j, fw logp0 logP n j = 0) ∧ (List.range' 1 k).foldlM (forwardStep logP)
          (Function.update (fun _ _ => ((0 : ℝ) : WithBot ℝ)) 0 logp0, 0) = none := by
    intro k
    induction k with
    | zero =>
      refine Or.inl ⟨by omega, _, rfl, ?_, ?_⟩
      · intro n hn
        obtain rfl : n = 0 := by omega
        refine ⟨by simp [scale], fun i => ?_⟩
        simp [scale, fw, fwd]
      · simp [scale]
    | succ k ih =>
      rw [List.range'_1_concat, List.foldlM_append]
      rcases ih with ⟨h1, s, hs, hinv⟩ | ⟨⟨n, hn, hpos, h0⟩, hnone⟩
      · rw [hs]
        obtain ⟨ha, hb⟩ := forwardStep_spec logp0 logP hinv
        rw [add_comm 1 k]
        simp only [Option.bind_eq_bind, Option.bind_some, List.foldlM_cons, List.foldlM_nil]
        by_cases h0 : ∑ j, fw logp0 logP (k + 1) j = 0
        · refine Or.inr ⟨⟨k + 1, le_rfl, by omega, h0⟩, ?_⟩
          rw [ha h0]; rfl
        · obtain ⟨s', hs', hinv'⟩ := hb h0
          refine Or.inl ⟨?_, s', ?_, hinv'⟩
          · intro n hn hpos
            by_cases hnk : n = k + 1
            · rw [hnk]; exact h0
            · exact h1 n (by omega) hpos
          · rw [hs']; rfl
      · refine Or.inr ⟨⟨n, by omega, hpos, h0⟩, ?_⟩
        rw [hnone]; rfl
  unfold forwardLoop
  rcases key (N - 1) with ⟨h1, h2⟩ | ⟨⟨n, hn, hpos, h0⟩, hnone⟩
  · exact Or.inl ⟨fun n hn hpos => h1 n (by omega) hpos, h2⟩
  · exact Or.inr ⟨⟨n, by omega, h0⟩, hnone⟩

/-- Backward sums of the potentials, of the transitions from time `n` to `N`. -/
noncomputable def bw (N n : Nat) (i : Fin D) : ℝ := bwd (expP logP) (N - n) n i

theorem bw_nonneg (N n : Nat) (i : Fin D) : 0 ≤ bw logP N n i := by
  unfold bw
  generalize N - n = k
  induction k generalizing n i with
  | zero => exact zero_le_one
  | succ k ih => exact Finset.sum_nonneg fun j _ => mul_nonneg (expBot_nonneg _) (ih _ j)

/-- What the backward loop has computed down to step `m`. -/
def BwdInv (N m : Nat) (s : Nat → Fin D → WithBot ℝ) : Prop :=
  ∀ n, m ≤ n → n < N → ∃ C > 0, ∀ i, expBot (s n i) = bw logP N (n + 1) i / C

theorem backwardStep_spec {N m : Nat} {s : Nat → Fin D → WithBot ℝ} (hm : m + 1 < N)
    (h : BwdInv logP N (m + 1) s)
    (hpos : ∃ i j, 0 < expP logP (m + 1) i j * bw logP N (m + 2) j) :
    ∃ s', backwardStep logP s m = some s' ∧ BwdInv logP N m s' := by
  obtain ⟨C, hC, hs⟩ := h (m + 1) le_rfl hm
  have hterm : ∀ i j, expBot (s (m + 1) j + logP (m + 1) i j) =
      expP logP (m + 1) i j * bw logP N (m + 2) j / C := by
    intro i j
    rw [expBot_add, hs j]
    unfold expP
    ring
  have htot : 0 < ∑ i, ∑ j, expBot (s (m + 1) j + logP (m + 1) i j) := by
    obtain ⟨i, j, hij⟩ := hpos
    have hle : expBot (s (m + 1) j + logP (m + 1) i j) ≤
        ∑ i, ∑ j, expBot (s (m + 1) j + logP (m + 1) i j) := by
      refine le_trans ?_ (Finset.single_le_sum (f := fun i => ∑ j, expBot (s (m + 1) j + logP (m + 1) i j))
        (fun i _ => Finset.sum_nonneg fun j _ => expBot_nonneg _) (Finset.mem_univ i))
      exact Finset.single_le_sum (f := fun j => expBot (s (m + 1) j + logP (m + 1) i j))
        (fun j _ => expBot_nonneg _) (Finset.mem_univ j)
    refine lt_of_lt_of_le ?_ hle
    rw [hterm]
    exact div_pos hij hC
  have hlse := lse2_eq fun i j => s (m + 1) j + logP (m + 1) i j
  generalize htt : (∑ i, ∑ j, expBot (s (m + 1) j + logP (m + 1) i j)) = t at hlse htot
  unfold backwardStep
  simp only [hlse, finite_logBot, if_neg htot.ne']
  refine ⟨_, rfl, ?_⟩
  intro n hn hnN
  by_cases hnm : n = m
  · subst hnm
    refine ⟨C * t, mul_pos hC htot, fun i => ?_⟩
    simp only [Function.update_self]
    rw [expBot_lseCols]
    simp only [expBot_shift htot, hterm]
    have hb : bw logP N (n + 1) i = ∑ j, expP logP (n + 1) i j * bw logP N (n + 2) j := by
      unfold bw
      have : N - (n + 1) = (N - (n + 2)) + 1 := by omega
      rw [this]
      rfl
    rw [hb, ← Finset.sum_div, ← Finset.sum_div]
    field_simp
  · simp only [Function.update_of_ne hnm]
    exact h n (by omega) hnN

theorem backwardLoop_spec (N : Nat) (hN : 0 < N)
    (hpos : ∀ n < N, ∃ i j, 0 < expP logP n i j * bw logP N (n + 1) j) :
    ∃ s, backwardLoop logP N = some s ∧ BwdInv logP N 0 s := by
  have key : ∀ k ≤ N - 1, ∃ s, ((List.range (N - 1)).reverse.take k).foldlM (backwardStep logP)
      (fun _ _ => ((0 : ℝ) : WithBot ℝ)) = some s ∧ BwdInv logP N (N - 1 - k) s := by
    intro k
    induction k with
    | zero =>
      intro _
      refine ⟨_, rfl, fun n h1 h2 => ⟨1, one_pos, fun i => ?_⟩⟩
      have : N - (n + 1) = 0 := by omega
      simp [bw, this, bwd, expBot]
    | succ k ih =>
      intro hk
      obtain ⟨s, hs, hinv⟩ := ih (by omega)
      have hlen : k < (List.range (N - 1)).reverse.length := by simp; omega
      rw [List.take_add_one, List.getElem?_eq_getElem hlen, List.foldlM_append, hs]
      have hel : (List.range (N - 1)).reverse[k]'hlen = N - 1 - (k + 1) := by
        rw [List.getElem_reverse, List.getElem_range, List.length_range]
        omega
      have hm : N - 1 - (k + 1) + 1 = N - 1 - k := by omega
      obtain ⟨s', hs', hinv'⟩ := backwardStep_spec logP (N := N) (m := N - 1 - (k + 1)) (s := s)
        (by omega) (by rw [hm]; exact hinv) (by
          have := hpos (N - 1 - (k + 1) + 1) (by omega)
          exact this)
      refine ⟨s', ?_, hinv'⟩
      simp only [Option.toList_some, Option.bind_eq_bind, Option.bind_some, List.foldlM_cons,
        List.foldlM_nil, hel, hs']
      rfl
  obtain ⟨s, hs, hinv⟩ := key (N - 1) le_rfl
  refine ⟨s, ?_, by simpa using hinv⟩
  unfold backwardLoop
  rwa [List.take_of_length_le (by simp)] at hs

end

end Verif
