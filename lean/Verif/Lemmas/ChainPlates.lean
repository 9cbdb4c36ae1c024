import Verif.Model.ChainPlates
import Verif.Props.MarkovChain
import Verif.Lemmas.BandPlates
import Verif.Props.Gradient

/-! # Lemmas about the recursions of a chain on one plate, with NaN, and on arrays -/

namespace Verif
open Spec

variable {D : Nat}

/-! ### NaN -/

theorem mapM_id_some {α ι : Type} (l : List ι) (f : ι → α) : ((l.map fun i => some (f i)).mapM id) = some (l.map f) := by
  induction l with
  | nil => rfl
  | cons a l ih => rw [List.map_cons, List.mapM_cons, ih]; rfl

theorem mapM_id_none {α : Type} {l : List (Option α)} (h : none ∈ l) : l.mapM id = none := by
  induction l with
  | nil => simp at h
  | cons a l ih =>
    rw [List.mapM_cons]
    cases a with
    | none => rfl
    | some a => rw [ih (by simpa using h)]; rfl

theorem flatMap_map_eq (D : Nat) {α β : Type} (f : Fin D → Fin D → α) (g : α → β) :
    ((List.finRange D).flatMap fun i => (List.finRange D).map fun j => g (f i j)) =
      ((List.finRange D).flatMap fun i => (List.finRange D).map fun j => f i j).map g := by
  rw [List.map_flatMap]
  simp only [List.map_map, Function.comp_def]

theorem nanLse2_some (w : Fin D → Fin D → WithBot ℝ) : nanLse2 (fun i j => some (w i j)) = some (logBot (∑ i, ∑ j, expBot (w i j))) := by
  unfold nanLse2 nanLse
  rw [flatMap_map_eq D w some]
  have := mapM_id_some ((List.finRange D).flatMap fun i => (List.finRange D).map fun j => w i j) id
  simp only [id] at this
  rw [this, ← lse2_eq]
  simp [lse2]

theorem nanLse2_none (hD : 0 < D) : nanLse2 (fun (_ _ : Fin D) => none) = none := by
  unfold nanLse2 nanLse
  rw [mapM_id_none (List.mem_flatMap.2 ⟨⟨0, hD⟩, List.mem_finRange _, List.mem_map.2 ⟨⟨0, hD⟩, List.mem_finRange _, rfl⟩⟩)]
  rfl

theorem nanLseRows_some (w : Fin D → Fin D → WithBot ℝ) (j : Fin D) : nanLseRows (fun i j => some (w i j)) j = some (lseRows w j) := by
  unfold nanLseRows nanLse
  rw [mapM_id_some]
  rfl

theorem nanLseCols_some (w : Fin D → Fin D → WithBot ℝ) (i : Fin D) : nanLseCols (fun i j => some (w i j)) i = some (lseCols w i) := by
  unfold nanLseCols nanLse
  rw [mapM_id_some]
  rfl

theorem nanLseRows_none (hD : 0 < D) (j : Fin D) : nanLseRows (fun (_ _ : Fin D) => none) j = none := by
  unfold nanLseRows nanLse
  rw [mapM_id_none (List.mem_map.2 ⟨⟨0, hD⟩, List.mem_finRange _, rfl⟩)]
  rfl

theorem nanLseCols_none (hD : 0 < D) (i : Fin D) : nanLseCols (fun (_ _ : Fin D) => none) i = none := by
  unfold nanLseCols nanLse
  rw [mapM_id_none (List.mem_map.2 ⟨⟨0, hD⟩, List.mem_finRange _, rfl⟩)]
  rfl

theorem nanSub_none_left (c : NanLog) : nanSub none c = none := by cases c <;> rfl
theorem nanSub_none_right (x : NanLog) : nanSub x none = none := by cases x <;> rfl
theorem nanSub_bot (x : NanLog) : nanSub x (some ⊥) = none := by cases x <;> rfl
theorem nanSub_zero (x : NanLog) : nanSub x (some (logBot 0)) = none := by
  have : logBot 0 = ⊥ := by simp [logBot]
  rw [this, nanSub_bot]

theorem nanSub_pos {T : ℝ} (hT : T ≠ 0) (x : WithBot ℝ) : nanSub (some x) (some (logBot T)) = some (addBot (-Real.log T) x) := by
  have : logBot T = ((Real.log T : ℝ) : WithBot ℝ) := by simp [logBot, hT]
  rw [this]
  rfl

/-! ### One plate -/

/-- the table that is summed in the forward step -/
noncomputable def fTab (a : Fin D → NanLog) (p : Fin D → Fin D → NanLog) : Fin D → Fin D → NanLog := fun i j => nanAdd (a i) (p i j)

/-- the table that is summed in the backward step -/
noncomputable def bTab (b : Fin D → NanLog) (p : Fin D → Fin D → NanLog) : Fin D → Fin D → NanLog := fun i j => nanAdd (b j) (p i j)

/-- the normalised table -/
noncomputable def normTab (v : Fin D → Fin D → NanLog) : Fin D → Fin D → NanLog := fun i j => nanSub (v i j) (nanLse2 v)

/-- `logalpha` and `g` -/
noncomputable def plateAlpha (p0 : Fin D → NanLog) (p : Nat → Fin D → Fin D → NanLog) : Nat → (Fin D → NanLog) × NanLog
  | 0 => (p0, some (0 : ℝ))
  | n + 1 =>
    let s := plateAlpha p0 p n
    (nanLseRows (normTab (fTab s.1 (p n))), nanSub s.2 (nanLse2 (fTab s.1 (p n))))

/-- `logbeta` at `k` instances before the last -/
noncomputable def plateBeta (p : Nat → Fin D → Fin D → NanLog) (N : Nat) : Nat → Fin D → NanLog
  | 0 => fun _ => some (0 : ℝ)
  | k + 1 => nanLseCols (normTab (bTab (plateBeta p N k) (p (N - 1 - k))))

section
variable (logp0 : Fin D → WithBot ℝ) (logP : Nat → Fin D → Fin D → WithBot ℝ)

/-- The log-potentials as numbers with NaN -/
def someVec : Fin D → NanLog := fun i => some (logp0 i)
/-- The log-potentials as numbers with NaN -/
def someTab : Nat → Fin D → Fin D → NanLog := fun n i j => some (logP n i j)

/-- The vector is the logarithm of `f` up to a factor. -/
def ScaledLog (a : Fin D → NanLog) (f : Fin D → ℝ) (S : ℝ) : Prop := ∃ x : Fin D → WithBot ℝ, a = (fun i => some (x i)) ∧ ∀ i, expBot (x i) = f i / S

theorem normTab_some {w : Fin D → Fin D → WithBot ℝ} (h : ∑ i, ∑ j, expBot (w i j) ≠ 0) :
    normTab (fun i j => some (w i j)) = fun i j => some (addBot (-Real.log (∑ i, ∑ j, expBot (w i j))) (w i j)) := by
  unfold normTab
  rw [nanLse2_some]
  funext i j
  exact nanSub_pos h _

theorem normTab_zero {w : Fin D → Fin D → WithBot ℝ} (h : ∑ i, ∑ j, expBot (w i j) = 0) :
    normTab (fun i j => some (w i j)) = fun _ _ => none := by
  unfold normTab
  rw [nanLse2_some, h]
  funext i j
  exact nanSub_zero _

theorem normTab_none : normTab (fun (_ _ : Fin D) => none) = fun _ _ => none := by
  funext i j
  exact nanSub_none_left _

theorem plateAlpha_spec (hD : 0 < D) (n : Nat) :
    (∃ S : ℝ, 0 < S ∧ ScaledLog (plateAlpha (someVec logp0) (someTab logP) n).1 (fw logp0 logP n) S ∧
      (plateAlpha (someVec logp0) (someTab logP) n).2 = some ((-Real.log S : ℝ) : WithBot ℝ)) ∨
    ((plateAlpha (someVec logp0) (someTab logP) n).1 = fun _ => none) ∧ (plateAlpha (someVec logp0) (someTab logP) n).2 = none ∧
      ∑ i, fw logp0 logP n i = 0 := by
  induction n with
  | zero => exact .inl ⟨1, one_pos, ⟨logp0, rfl, fun i => by rw [div_one]; rfl⟩, by rw [Real.log_one, neg_zero]; rfl⟩
  | succ n ih =>
    rcases ih with ⟨S, hS, ⟨x, hx, hxe⟩, hg⟩ | ⟨ha, hg, h0⟩
    · have hv : fTab (plateAlpha (someVec logp0) (someTab logP) n).1 (someTab logP n) = fun i j => some (x i + logP n i j) := by rw [hx]; rfl
      have hT : ∑ i, ∑ j, expBot (x i + logP n i j) = (∑ j, fw logp0 logP (n + 1) j) / S := by
        rw [← fw_succ_sum, Finset.sum_div]
        refine Finset.sum_congr rfl fun i _ => ?_
        rw [Finset.sum_div]
        refine Finset.sum_congr rfl fun j _ => ?_
        rw [expBot_add, hxe]
        unfold expP
        ring
      by_cases hz : ∑ j, fw logp0 logP (n + 1) j = 0
      · right
        rw [hz, zero_div] at hT
        refine ⟨?_, ?_, hz⟩
        · show nanLseRows (normTab (fTab _ (someTab logP n))) = _
          rw [hv, normTab_zero hT]
          funext j
          exact nanLseRows_none hD j
        · show nanSub _ (nanLse2 (fTab _ (someTab logP n))) = _
          rw [hv, nanLse2_some, hT, nanSub_zero]
      · left
        have hpos : 0 < ∑ j, fw logp0 logP (n + 1) j :=
          lt_of_le_of_ne (Finset.sum_nonneg fun i _ => fw_nonneg logp0 logP _ i) (Ne.symm hz)
        have hTpos : 0 < ∑ i, ∑ j, expBot (x i + logP n i j) := by rw [hT]; exact div_pos hpos hS
        refine ⟨_, hpos, ⟨lseRows fun i j => addBot (-Real.log (∑ i, ∑ j, expBot (x i + logP n i j))) (x i + logP n i j), ?_, fun j => ?_⟩, ?_⟩
        · show nanLseRows (normTab (fTab _ (someTab logP n))) = _
          rw [hv, normTab_some hTpos.ne']
          funext j
          exact nanLseRows_some _ j
        · rw [expBot_lseRows]
          simp only [expBot_shift hTpos]
          simp only [expBot_add] at hT ⊢
          rw [← Finset.sum_div, hT]
          have : ∑ i, expBot (x i) * expBot (logP n i j) = fw logp0 logP (n + 1) j / S := by
            show _ = (∑ i, fw logp0 logP n i * expP logP n i j) / _
            rw [Finset.sum_div]
            refine Finset.sum_congr rfl fun i _ => ?_
            rw [hxe]
            unfold expP
            ring
          rw [this]
          field_simp
        · show nanSub _ (nanLse2 (fTab _ (someTab logP n))) = _
          rw [hv, nanLse2_some, hg, nanSub_pos hTpos.ne', hT, Real.log_div hpos.ne' hS.ne']
          show some (((-Real.log S + -(Real.log _ - Real.log S) : ℝ)) : WithBot ℝ) = _
          congr 2
          ring
    · right
      have hv : fTab (plateAlpha (someVec logp0) (someTab logP) n).1 (someTab logP n) = fun _ _ => none := by rw [ha]; rfl
      refine ⟨?_, ?_, fw_zero_mono logp0 logP (Nat.le_succ n) h0⟩
      · show nanLseRows (normTab (fTab _ (someTab logP n))) = _
        rw [hv, normTab_none]
        funext j
        exact nanLseRows_none hD j
      · show nanSub _ _ = _
        rw [hg, nanSub_none_left]

theorem bw_succ {N n : Nat} (h : n < N) (i : Fin D) : bw logP N n i = ∑ j, expP logP n i j * bw logP N (n + 1) j := by
  unfold bw
  have : N - n = N - (n + 1) + 1 := by omega
  rw [this]
  rfl

theorem plateBeta_spec (hD : 0 < D) (N k : Nat) (hk : k < N) :
    (∃ S : ℝ, 0 < S ∧ ScaledLog (plateBeta (someTab logP) N k) (bw logP N (N - k)) S) ∨
      (plateBeta (someTab logP) N k = fun _ => none) ∧ ∀ i, bw logP N (N - k) i = 0 := by
  induction k with
  | zero =>
    refine .inl ⟨1, one_pos, fun _ => ((0 : ℝ) : WithBot ℝ), rfl, fun i => ?_⟩
    simp [bw, bwd, expBot]
  | succ k ih =>
    have e1 : N - 1 - k = N - (k + 1) := by omega
    have e2 : N - k = N - (k + 1) + 1 := by omega
    have hb : ∀ i, bw logP N (N - (k + 1)) i = ∑ j, expP logP (N - (k + 1)) i j * bw logP N (N - k) j := fun i => by
      rw [bw_succ logP (by omega) i, e2]
    rcases ih (by omega) with ⟨S, hS, x, hx, hxe⟩ | ⟨ha, h0⟩
    · have hv : bTab (plateBeta (someTab logP) N k) (someTab logP (N - 1 - k)) = fun i j => some (x j + logP (N - (k + 1)) i j) := by
        rw [hx, e1]; rfl
      have hrow : ∀ i, ∑ j, expBot (x j + logP (N - (k + 1)) i j) = bw logP N (N - (k + 1)) i / S := fun i => by
        rw [hb, Finset.sum_div]
        refine Finset.sum_congr rfl fun j _ => ?_
        rw [expBot_add, hxe]
        unfold expP
        ring
      by_cases hz : ∑ i, ∑ j, expBot (x j + logP (N - (k + 1)) i j) = 0
      · right
        refine ⟨?_, fun i => ?_⟩
        · show nanLseCols (normTab (bTab _ _)) = _
          rw [hv, normTab_zero hz]
          funext i
          exact nanLseCols_none hD i
        · have h1 := (Finset.sum_eq_zero_iff_of_nonneg fun i _ => Finset.sum_nonneg fun j _ => expBot_nonneg _).1 hz i (Finset.mem_univ i)
          rw [hrow i, div_eq_zero_iff] at h1
          exact h1.resolve_right hS.ne'
      · left
        have hpos : 0 < ∑ i, ∑ j, expBot (x j + logP (N - (k + 1)) i j) := lt_of_le_of_ne (sum2_expBot_nonneg _) (Ne.symm hz)
        refine ⟨S * ∑ i, ∑ j, expBot (x j + logP (N - (k + 1)) i j), mul_pos hS hpos,
          lseCols fun i j => addBot (-Real.log (∑ i, ∑ j, expBot (x j + logP (N - (k + 1)) i j))) (x j + logP (N - (k + 1)) i j), ?_, fun i => ?_⟩
        · show nanLseCols (normTab (bTab _ _)) = _
          rw [hv, normTab_some hz]
          funext i
          exact nanLseCols_some _ i
        · rw [expBot_lseCols]
          simp only [expBot_shift hpos]
          rw [← Finset.sum_div, hrow, div_div]
    · right
      refine ⟨?_, fun i => by rw [hb]; exact Finset.sum_eq_zero fun j _ => by rw [h0, mul_zero]⟩
      show nanLseCols (normTab (bTab _ _)) = _
      have hv : bTab (plateBeta (someTab logP) N k) (someTab logP (N - 1 - k)) = fun _ _ => none := by rw [ha]; rfl
      rw [hv, normTab_none]
      funext i
      exact nanLseCols_none hD i

/-- the pairs of one time instance -/
noncomputable def platePair (a b : Fin D → NanLog) (p : Fin D → Fin D → NanLog) : Fin D → Fin D → Option ℝ :=
  let v := fun i j => nanAdd (nanAdd (a i) (b j)) (p i j)
  let z := fun i j => (nanSub (v i j) (nanLse2 v)).map expBot
  fun i j => nanDiv (z i j) (nanTotal ((List.finRange D).flatMap fun k => (List.finRange D).map fun l => z k l))

theorem nanTotal_some {ι : Type} (l : List ι) (f : ι → ℝ) : nanTotal (l.map fun i => some (f i)) = some (l.map f).sum := by
  unfold nanTotal
  rw [mapM_id_some]
  rfl

theorem nanTotal2_some (f : Fin D → Fin D → ℝ) :
    nanTotal ((List.finRange D).flatMap fun k => (List.finRange D).map fun l => some (f k l)) = some (∑ k, ∑ l, f k l) := by
  rw [flatMap_map_eq D f some]
  have := nanTotal_some ((List.finRange D).flatMap fun k => (List.finRange D).map fun l => f k l) id
  rw [List.map_id] at this
  refine this.trans ?_
  congr 1
  have hsum : ∀ (l : List (Fin D)) (f : Fin D → List ℝ), (l.flatMap f).sum = (l.map fun i => (f i).sum).sum := by
    intro l f
    induction l with
    | nil => rfl
    | cons a l ih => simp [List.flatMap_cons, ih]
  rw [hsum]
  simp only [sum_finRange]

theorem pair_total (N n : Nat) (hn : n < N) :
    ∑ i, ∑ j, fw logp0 logP n i * expP logP n i j * bw logP N (n + 1) j = ∑ j, fw logp0 logP N j := by
  have := fwd_bwd_pair (fun i => expBot (logp0 i)) (expP logP) (N - (n + 1)) n
  have h2 : n + 1 + (N - (n + 1)) = N := by omega
  rw [h2] at this
  exact this

theorem platePair_spec (hD : 0 < D) (N n : Nat) (hn : n < N) :
    (∑ j, fw logp0 logP N j ≠ 0 → ∀ i j,
      platePair (plateAlpha (someVec logp0) (someTab logP) n).1 (plateBeta (someTab logP) N (N - 1 - n)) (someTab logP n) i j =
        some (fw logp0 logP n i * expP logP n i j * bw logP N (n + 1) j / ∑ j, fw logp0 logP N j)) ∧
    (∑ j, fw logp0 logP N j = 0 → ∀ i j,
      platePair (plateAlpha (someVec logp0) (someTab logP) n).1 (plateBeta (someTab logP) N (N - 1 - n)) (someTab logP n) i j = none) := by
  have hp := pair_total logp0 logP N n hn
  have e : N - (N - 1 - n) = n + 1 := by omega
  have key : ∀ (a b : Fin D → NanLog), ((fun i j => nanAdd (nanAdd (a i) (b j)) (someTab logP n i j)) = fun _ _ => none) →
      ∀ i j, platePair a b (someTab logP n) i j = none := fun a b h i j => by
    have h' : nanAdd (nanAdd (a i) (b j)) (someTab logP n i j) = none := congrFun (congrFun h i) j
    have : ∀ c t, nanDiv ((nanSub none c).map expBot) t = none := fun c t => by
      rw [nanSub_none_left]; cases t <;> rfl
    unfold platePair
    beta_reduce
    rw [h', this]
  rcases plateAlpha_spec logp0 logP hD n with ⟨S, hS, ⟨x, hx, hxe⟩, -⟩ | ⟨ha, -, h0⟩
  · have hb := plateBeta_spec logP hD N (N - 1 - n) (by omega)
    rw [e] at hb
    rcases hb with ⟨S', hS', y, hy, hye⟩ | ⟨hb, h0⟩
    · rw [hx, hy]
      have hv : (fun i j => nanAdd (nanAdd (some (x i)) (some (y j))) (someTab logP n i j)) = fun i j => some (x i + y j + logP n i j) := rfl
      have hterm : ∀ i j, expBot (x i + y j + logP n i j) = fw logp0 logP n i * expP logP n i j * bw logP N (n + 1) j / (S * S') := fun i j => by
        rw [expBot_add, expBot_add, hxe, hye]
        unfold expP
        field_simp
      have hT : ∑ i, ∑ j, expBot (x i + y j + logP n i j) = (∑ j, fw logp0 logP N j) / (S * S') := by
        simp only [hterm, ← Finset.sum_div]
        rw [hp]
      refine ⟨fun hz i j => ?_, fun hz i j => ?_⟩
      · have hpos : 0 < ∑ j, fw logp0 logP N j :=
          lt_of_le_of_ne (Finset.sum_nonneg fun i _ => fw_nonneg logp0 logP _ i) (Ne.symm hz)
        have hTpos : 0 < ∑ i, ∑ j, expBot (x i + y j + logP n i j) := by rw [hT]; exact div_pos hpos (mul_pos hS hS')
        have hz' : ∀ i j, (nanSub (some (x i + y j + logP n i j)) (some (logBot (∑ i, ∑ j, expBot (x i + y j + logP n i j))))).map expBot =
            some (fw logp0 logP n i * expP logP n i j * bw logP N (n + 1) j / ∑ j, fw logp0 logP N j) := fun i j => by
          rw [nanSub_pos hTpos.ne', Option.map_some, expBot_shift hTpos, hterm, hT]
          congr 1
          field_simp
        have hz'' : ∀ i j, (nanSub (nanAdd (nanAdd (some (x i)) (some (y j))) (someTab logP n i j))
            (some (logBot (∑ i, ∑ j, expBot (x i + y j + logP n i j))))).map expBot =
            some (fw logp0 logP n i * expP logP n i j * bw logP N (n + 1) j / ∑ j, fw logp0 logP N j) := hz'
        unfold platePair
        simp only [hv, nanLse2_some, hz'']
        rw [nanTotal2_some]
        have hone : (∑ k, ∑ l, fw logp0 logP n k * expP logP n k l * bw logP N (n + 1) l / ∑ j, fw logp0 logP N j) = 1 := by
          simp only [← Finset.sum_div]
          rw [hp, div_self hz]
        rw [hone]
        show (if (1 : ℝ) = 0 then none else some (_ / 1)) = _
        rw [if_neg one_ne_zero, div_one]
      · rw [hz, zero_div] at hT
        unfold platePair
        simp only [hv, nanLse2_some, hT, nanSub_zero]
        rfl
    · refine ⟨fun hz => ?_, fun _ => key _ _ (by rw [hb, hx]; rfl)⟩
      exact absurd (by rw [← hp]; exact Finset.sum_eq_zero fun i _ => Finset.sum_eq_zero fun j _ => by rw [h0, mul_zero]) hz
  · exact ⟨fun hz => absurd (fw_zero_mono logp0 logP hn.le h0) hz, fun _ => key _ _ (by rw [ha]; rfl)⟩

theorem plateG_spec (hD : 0 < D) (N : Nat) (hN : 0 < N) :
    (∑ j, fw logp0 logP N j ≠ 0 → (plateAlpha (someVec logp0) (someTab logP) N).2 = some ((-Real.log (∑ j, fw logp0 logP N j) : ℝ) : WithBot ℝ)) ∧
    (∑ j, fw logp0 logP N j = 0 → (plateAlpha (someVec logp0) (someTab logP) N).2 = none) := by
  obtain ⟨n, rfl⟩ : ∃ n, N = n + 1 := ⟨N - 1, by omega⟩
  rcases plateAlpha_spec logp0 logP hD n with ⟨S, hS, ⟨x, hx, hxe⟩, hg⟩ | ⟨ha, hg, h0⟩
  · have hv : fTab (plateAlpha (someVec logp0) (someTab logP) n).1 (someTab logP n) = fun i j => some (x i + logP n i j) := by rw [hx]; rfl
    have hT : ∑ i, ∑ j, expBot (x i + logP n i j) = (∑ j, fw logp0 logP (n + 1) j) / S := by
      rw [← fw_succ_sum, Finset.sum_div]
      refine Finset.sum_congr rfl fun i _ => ?_
      rw [Finset.sum_div]
      refine Finset.sum_congr rfl fun j _ => ?_
      rw [expBot_add, hxe]
      unfold expP
      ring
    have hs : (plateAlpha (someVec logp0) (someTab logP) (n + 1)).2 = nanSub (some ((-Real.log S : ℝ) : WithBot ℝ))
        (some (logBot ((∑ j, fw logp0 logP (n + 1) j) / S))) := by
      show nanSub _ (nanLse2 (fTab _ (someTab logP n))) = _
      rw [hv, nanLse2_some, hg, hT]
    refine ⟨fun hz => ?_, fun hz => by rw [hs, hz, zero_div, nanSub_zero]⟩
    rw [hs, nanSub_pos (div_ne_zero hz hS.ne'), Real.log_div hz hS.ne']
    show some (((-Real.log S + -(Real.log _ - Real.log S) : ℝ)) : WithBot ℝ) = _
    congr 2
    ring
  · refine ⟨fun hz => absurd (fw_zero_mono logp0 logP (Nat.le_succ n) h0) hz, fun _ => ?_⟩
    show nanSub _ _ = _
    rw [hg, nanSub_none_left]

end

/-! ### Arrays -/

section
variable {plates : List Nat} {P : Nat → Arr (Fin D → Fin D → NanLog)} {p0 : Arr (Fin D → NanLog)}

/-- the state of the forward recursion after `m` steps -/
structure FwdArr (plates : List Nat) (p0 : Arr (Fin D → NanLog)) (P : Nat → Arr (Fin D → Fin D → NanLog)) (m : Nat)
    (s : (Nat → Arr (Fin D → NanLog)) × Arr NanLog) : Prop where
  shape : ∀ n ≤ m, (s.1 n).shape = plates
  val : ∀ n ≤ m, ∀ c, (s.1 n).at c = (plateAlpha (p0.at c) (fun n => (P n).at c) n).1
  gshape : s.2.shape = plates
  g : ∀ c, s.2.at c = (plateAlpha (p0.at c) (fun n => (P n).at c) m).2

theorem forward_arr_step (hP : ∀ n, BroadcastsTo (P n).shape plates) {m : Nat} {s} (h : FwdArr plates p0 P m s) :
    ∃ s', chainForward plates P s m = .ok s' ∧ FwdArr plates p0 P (m + 1) s' := by
  obtain ⟨v, v1, v2, v3⟩ := map2_left (fun (a : Fin D → NanLog) (p : Fin D → Fin D → NanLog) i j => nanAdd (a i) (p i j))
    (h.shape m le_rfl) (hP m)
  obtain ⟨w, w1, w2, w3⟩ := map2_left (fun (v : Fin D → Fin D → NanLog) (c : NanLog) i j => nanSub (v i j) c) v2
    (Y := v.map nanLse2) (by show BroadcastsTo v.shape _; rw [v2]; exact BroadcastsTo_refl _)
  obtain ⟨a, a1, a2, a3, -⟩ := fill_ok (P := plates) (v := w.map nanLseRows) (by show BroadcastsTo w.shape _; rw [w2]; exact BroadcastsTo_refl _)
  obtain ⟨g, g1, g2, g3⟩ := map2_left nanSub h.gshape (Y := v.map nanLse2) (by show BroadcastsTo v.shape _; rw [v2]; exact BroadcastsTo_refl _)
  obtain ⟨g', g1', g2', g3', -⟩ := fill_ok (P := s.2.shape) (v := g) (by rw [g2, h.gshape]; exact BroadcastsTo_refl _)
  have hv : ∀ c, v.at c = fTab (plateAlpha (p0.at c) (fun n => (P n).at c) m).1 ((P m).at c) := fun c => by
    rw [v3, h.val m le_rfl]; rfl
  refine ⟨(Function.update s.1 (m + 1) a, g'), ?_, ?_, ?_, g2'.trans h.gshape, fun c => ?_⟩
  · unfold chainForward
    simp only [v1, w1, a1, g1, g1', bind, Except.bind, pure, Except.pure]
  · intro n hn
    rcases Nat.lt_or_ge m n with hlt | hle
    · obtain rfl : n = m + 1 := by omega
      simpa using a2
    · show (Function.update s.1 (m + 1) a n).shape = _
      rw [Function.update_of_ne (by omega)]
      exact h.shape n hle
  · intro n hn c
    rcases Nat.lt_or_ge m n with hlt | hle
    · obtain rfl : n = m + 1 := by omega
      show (Function.update s.1 (m + 1) a (m + 1)).at c = nanLseRows (normTab (fTab _ _))
      rw [Function.update_self, a3]
      show nanLseRows (w.at c) = _
      rw [w3]
      show nanLseRows (fun i j => nanSub (v.at c i j) (nanLse2 (v.at c))) = _
      rw [hv]
      rfl
    · show (Function.update s.1 (m + 1) a n).at c = _
      rw [Function.update_of_ne (by omega)]
      exact h.val n hle c
  · show g'.at c = nanSub _ (nanLse2 (fTab _ _))
    rw [g3', g3]
    show nanSub _ (nanLse2 (v.at c)) = _
    rw [hv, h.g]

theorem forward_arr_ok (h0 : BroadcastsTo p0.shape plates) (hP : ∀ n, BroadcastsTo (P n).shape plates) {s0} (hs : FwdArr plates p0 P 0 s0) (m : Nat) :
    ∃ s, (List.range m).foldlM (chainForward plates P) s0 = .ok s ∧ FwdArr plates p0 P m s := by
  induction m with
  | zero => exact ⟨s0, rfl, hs⟩
  | succ m ih =>
    obtain ⟨s, h1, h2⟩ := ih
    obtain ⟨s', h3, h4⟩ := forward_arr_step hP h2
    refine ⟨s', ?_, h4⟩
    rw [List.range_succ, List.foldlM_append, h1]
    show ([m].foldlM (chainForward plates P) s) = _
    rw [List.foldlM_cons, h3]
    rfl

/-- the part of `logbeta` from time instance `m` on is right -/
def BwdArr (plates : List Nat) (P : Nat → Arr (Fin D → Fin D → NanLog)) (N m : Nat) (b : Nat → Arr (Fin D → NanLog)) : Prop :=
  ∀ n, m ≤ n → n < N → (b n).shape = plates ∧ ∀ c, (b n).at c = plateBeta (fun n => (P n).at c) N (N - 1 - n)

theorem backward_arr_step (hP : ∀ n, BroadcastsTo (P n).shape plates) {N m : Nat} (hm : m + 1 < N) {b} (h : BwdArr plates P N (m + 1) b) :
    ∃ b', chainBackward plates P b m = .ok b' ∧ BwdArr plates P N m b' := by
  obtain ⟨h1, h2⟩ := h (m + 1) le_rfl hm
  obtain ⟨v, v1, v2, v3⟩ := map2_left (fun (b : Fin D → NanLog) (p : Fin D → Fin D → NanLog) i j => nanAdd (b j) (p i j)) h1 (hP (m + 1))
  obtain ⟨w, w1, w2, w3⟩ := map2_left (fun (v : Fin D → Fin D → NanLog) (c : NanLog) i j => nanSub (v i j) c) v2
    (Y := v.map nanLse2) (by show BroadcastsTo v.shape _; rw [v2]; exact BroadcastsTo_refl _)
  obtain ⟨a, a1, a2, a3, -⟩ := fill_ok (P := plates) (v := w.map nanLseCols) (by show BroadcastsTo w.shape _; rw [w2]; exact BroadcastsTo_refl _)
  refine ⟨Function.update b m a, ?_, fun n hn hnN => ?_⟩
  · unfold chainBackward
    simp only [v1, w1, a1, bind, Except.bind, pure, Except.pure]
  · rcases Nat.eq_or_lt_of_le hn with rfl | hlt
    · rw [Function.update_self]
      refine ⟨a2, fun c => ?_⟩
      rw [a3]
      show nanLseCols (w.at c) = _
      have e : N - 1 - m = N - 1 - (m + 1) + 1 := by omega
      have e2 : N - 1 - (N - 1 - (m + 1)) = m + 1 := by omega
      rw [w3, e]
      show nanLseCols (fun i j => nanSub (v.at c i j) (nanLse2 (v.at c))) = nanLseCols (normTab (bTab _ ((P (N - 1 - (N - 1 - (m + 1)))).at c)))
      rw [e2, v3, h2]
      rfl
    · rw [Function.update_of_ne (by omega)]
      exact h n hlt hnN

theorem backward_arr_ok (hP : ∀ n, BroadcastsTo (P n).shape plates) {N : Nat} (m : Nat) (hm : m < N) {b} (h : BwdArr plates P N m b) :
    ∃ b', (List.range m).reverse.foldlM (chainBackward plates P) b = .ok b' ∧ BwdArr plates P N 0 b' := by
  induction m generalizing b with
  | zero => exact ⟨b, rfl, h⟩
  | succ m ih =>
    obtain ⟨b1, h1, h2⟩ := backward_arr_step hP hm h
    obtain ⟨b2, h3, h4⟩ := ih (by omega) h2
    refine ⟨b2, ?_, h4⟩
    rw [List.range_succ, List.reverse_append, List.reverse_singleton, List.singleton_append, List.foldlM_cons, h1]
    exact h3

theorem chainPair_ok {a b : Arr (Fin D → NanLog)} {p : Arr (Fin D → Fin D → NanLog)} (ha : a.shape = plates) (hb : b.shape = plates)
    (hp : BroadcastsTo p.shape plates) :
    ∃ r, chainPair a b p = .ok r ∧ r.shape = plates ∧ ∀ c, r.at c = platePair (a.at c) (b.at c) (p.at c) := by
  obtain ⟨v, v1, v2, v3⟩ := map2_left (fun (a b : Fin D → NanLog) i j => nanAdd (a i) (b j)) ha
    (Y := b) (by rw [hb]; exact BroadcastsTo_refl _)
  obtain ⟨w, w1, w2, w3⟩ := map2_left (fun (v p : Fin D → Fin D → NanLog) i j => nanAdd (v i j) (p i j)) v2 hp
  obtain ⟨z, z1, z2, z3⟩ := map2_left (fun (v : Fin D → Fin D → NanLog) (c : NanLog) i j => (nanSub (v i j) c).map expBot) w2
    (Y := w.map nanLse2) (by show BroadcastsTo w.shape _; rw [w2]; exact BroadcastsTo_refl _)
  refine ⟨z.map fun z i j => nanDiv (z i j) (nanTotal ((List.finRange D).flatMap fun k => (List.finRange D).map fun l => z k l)), ?_, z2, fun c => ?_⟩
  · unfold chainPair
    simp only [v1, w1, z1, bind, Except.bind, pure, Except.pure]
  · show (fun i j => nanDiv (z.at c i j) (nanTotal ((List.finRange D).flatMap fun k => (List.finRange D).map fun l => z.at c k l))) = _
    have e1 : w.at c = fun i j => nanAdd (nanAdd (a.at c i) (b.at c j)) (p.at c i j) := by rw [w3, v3]
    have e2 : z.at c = fun i j => (nanSub (w.at c i j) (nanLse2 (w.at c))).map expBot := z3 c
    rw [e2, e1]
    rfl

/-- the marginal of the first state -/
noncomputable def plateZ0 (z : Fin D → Fin D → Option ℝ) : Fin D → Option ℝ :=
  let m := fun i => nanTotal ((List.finRange D).map fun j => z i j)
  fun i => nanDiv (m i) (nanTotal ((List.finRange D).map m))

theorem chainPlates_ok (h0 : BroadcastsTo p0.shape plates) (hP : ∀ n, BroadcastsTo (P n).shape plates) {N : Nat} (hN : 0 < N) :
    ∃ r, chainPlates N plates p0 P = .ok r ∧ r.z0.shape = plates ∧ r.zz.length = N ∧ r.g.shape = plates ∧
      (∀ (n : Nat) a, r.zz[n]? = some a → a.shape = plates ∧ ∀ c, a.at c =
        platePair (plateAlpha (p0.at c) (fun n => (P n).at c) n).1 (plateBeta (fun n => (P n).at c) N (N - 1 - n)) ((P n).at c)) ∧
      (∀ c, r.g.at c = (plateAlpha (p0.at c) (fun n => (P n).at c) N).2) ∧
      ∀ c, r.z0.at c = plateZ0 (platePair (p0.at c) (plateBeta (fun n => (P n).at c) N (N - 1)) ((P 0).at c)) := by
  obtain ⟨a0, e1, e2, e3, -⟩ := fill_ok h0
  have hs : FwdArr plates p0 P 0 (Function.update (fun _ => (⟨plates, fun _ _ => some (0 : ℝ)⟩ : Arr (Fin D → NanLog))) 0 a0,
      (⟨plates, fun _ => some (0 : ℝ)⟩ : Arr NanLog)) := by
    refine ⟨fun n hn => ?_, fun n hn c => ?_, rfl, fun c => rfl⟩
    · obtain rfl : n = 0 := by omega
      simpa using e2
    · obtain rfl : n = 0 := by omega
      refine Eq.trans ?_ (e3 c)
      simp only [Function.update_self]
  obtain ⟨⟨la, g⟩, f1, f2⟩ := forward_arr_ok h0 hP hs (N - 1)
  have f2s := f2.shape
  have f2v := f2.val
  have f2gs := f2.gshape
  have f2g := f2.g
  dsimp only at f2s f2v f2gs f2g
  obtain ⟨v, v1, v2, v3⟩ := map2_left (fun (a : Fin D → NanLog) (p : Fin D → Fin D → NanLog) i j => nanAdd (a i) (p i j))
    (f2s (N - 1) le_rfl) (hP (N - 1))
  obtain ⟨g1, k1, k2, k3⟩ := map2_left nanSub f2gs (Y := v.map nanLse2) (by show BroadcastsTo v.shape _; rw [v2]; exact BroadcastsTo_refl _)
  obtain ⟨g2, l1, l2, l3, -⟩ := fill_ok (P := g.shape) (v := g1) (by rw [k2, f2gs]; exact BroadcastsTo_refl _)
  obtain ⟨lb, b1, b2⟩ := backward_arr_ok (plates := plates) hP (N := N) (N - 1) (by omega) (b := fun _ => ⟨plates, fun _ _ => some (0 : ℝ)⟩) (by
    intro n hn hnN
    refine ⟨rfl, fun c => ?_⟩
    have : N - 1 - n = 0 := by omega
    rw [this]
    rfl)
  obtain ⟨zz, z1, z2, z3⟩ := mapM_index (List.range N) (f := fun n => chainPair (la n) (lb n) (P n))
    (Q := fun n a => a.shape = plates ∧ ∀ c, a.at c =
        platePair (plateAlpha (p0.at c) (fun n => (P n).at c) n).1 (plateBeta (fun n => (P n).at c) N (N - 1 - n)) ((P n).at c)) (by
    intro i n hi
    obtain ⟨hlt, rfl⟩ := List.getElem?_eq_some_iff.1 hi
    rw [List.length_range] at hlt
    simp only [List.getElem_range]
    obtain ⟨r, r1, r2, r3⟩ := chainPair_ok (f2s i (by omega)) (b2 i (by omega) hlt).1 (hP i)
    refine ⟨r, r1, r2, fun c => ?_⟩
    rw [r3, f2v i (by omega), (b2 i (by omega) hlt).2])
  rw [List.length_range] at z2
  obtain ⟨z, zs, rfl⟩ : ∃ z zs, zz = z :: zs := by
    cases zz with
    | nil => simp at z2; omega
    | cons z zs => exact ⟨z, zs, rfl⟩
  obtain ⟨w1, w2⟩ := z3 0 z rfl
  refine ⟨⟨z.map plateZ0, z :: zs, g2⟩, ?_, ?_, z2, l2.trans f2gs, z3, fun c => ?_, fun c => ?_⟩
  · unfold chainPlates
    simp only [e1, f1, v1, k1, l1, b1, z1, bind, Except.bind, pure, Except.pure]
    rfl
  · exact w1
  · obtain ⟨M, rfl⟩ : ∃ M, N = M + 1 := ⟨N - 1, by omega⟩
    show g2.at c = nanSub _ (nanLse2 (fTab _ _))
    rw [l3, k3]
    show nanSub _ (nanLse2 (v.at c)) = _
    rw [v3, f2g, f2v _ le_rfl]
    rfl
  · show plateZ0 (z.at c) = _
    rw [w2]
    rfl

end

end Verif
