import Verif.Lemmas.Reshape
import Verif.Lemmas.KeyedPlates
import Verif.Model.SumMultiplyMessage

/-!
# Helper lemmas: the messages of `SumMultiply`

Sums over named axes: which axes can be summed before multiplying by the moments of a parent.
-/

namespace Verif
open Spec Function

section
variable {ν α : Type} [DecidableEq ν]

/-- A sum over the elements of an array is a sum over the positions of its named axes. -/
theorem sumOver_keys [AddCommMonoid α] (ks : List ν) (hnd : ks.Nodup) (len : ν → Nat) (f : (Nat → Nat) → α)
    (e0 : ν → Nat) :
    sumOver (ks.map len) f = sumKeys (ks.map fun k => (k, len k)) (fun e => f (coord (ks.map e))) e0 := by
  induction ks generalizing f e0 with
  | nil => simp [sumKeys, sumOver, indices]
  | cons k ks ih =>
    rw [List.nodup_cons] at hnd
    simp only [List.map_cons, sumOver_cons, sumKeys]
    apply Finset.sum_congr rfl
    intro t _
    rw [ih hnd.2 _ (update e0 k t)]
    apply sumKeys_congr
    intro e' he'
    have : e' k = t := by
      rw [he' k (by simpa using hnd.1)]
      simp
    rw [coord_cons, this, List.length_map, List.length_map]

variable [CommSemiring α]

theorem perm_of_mem_iff {l m : List ν} (hl : l.Nodup) (hm : m.Nodup) (h : ∀ x, x ∈ l ↔ x ∈ m) : l.Perm m :=
  (List.perm_ext_iff_of_nodup hl hm).2 h

theorem filter_split (l : List ν) (q : ν → Bool) : l.Perm (l.filter q ++ l.filter fun x => !q x) :=
  (List.filter_append_perm q l).symm

/-- Summing first over the axes which are not axes of the parent.  `F` is the product of the other
factors: its value depends only on the axes with `a l ≠ 1`.  `U` are the moments of the parent. -/
theorem message_sum (T pn A : List ν) (Λ plen a : ν → Nat) (F U : (ν → Nat) → α) (e0 : ν → Nat)
    (hT : T.Nodup) (hpn : pn.Nodup) (hsub : ∀ l ∈ pn, l ∈ T)
    (hplen : ∀ l ∈ pn, plen l = 1 ∨ plen l = Λ l)
    (ha : ∀ l, a l ≠ 1 → l ∈ T ∧ a l = Λ l)
    (hF : ∀ e e', (∀ l, a l ≠ 1 → e l = e' l) → F e = F e')
    (hU : ∀ e e', (∀ l ∈ pn, plen l ≠ 1 → e l = e' l) → U e = U e')
    (hA : A.Nodup) (hA1 : ∀ l ∈ A, ¬ (l ∈ pn ∧ plen l ≠ 1))
    (hA2 : ∀ l, a l ≠ 1 → ¬ (l ∈ pn ∧ plen l ≠ 1) → l ∈ A) :
    sumKeys (T.map fun l => (l, Λ l)) (fun e => F e * U e) e0
      = sumKeys (pn.map fun l => (l, plen l)) (fun e =>
          (((T.filter fun l => decide (¬ (l ∈ pn ∧ plen l ≠ 1) ∧ a l = 1)).map Λ).prod : Nat) *
            sumKeys (A.map fun l => (l, a l)) F e * U e) e0 := by
  classical
  set in2 : ν → Bool := fun l => decide (l ∈ pn ∧ plen l ≠ 1) with hin2
  set T2 := T.filter in2 with hT2
  set T3 := T.filter fun l => !in2 l with hT3
  set big : ν → Bool := fun l => decide (a l ≠ 1) with hbig
  set r : Nat := ((T.filter fun l => decide (¬ (l ∈ pn ∧ plen l ≠ 1) ∧ a l = 1)).map Λ).prod with hr
  have hfst : ∀ (l : List ν) (g : ν → Nat), (l.map fun x => (x, g x)).map (·.1) = l := by
    intro l g; simp [Function.comp_def]
  have hneg : ∀ l, (!in2 l) = true ↔ ¬ (l ∈ pn ∧ plen l ≠ 1) := by
    intro l
    rw [hin2, Bool.not_eq_true', decide_eq_false_iff_not]
  have hnin : ∀ l ∈ T3, ¬ (l ∈ pn ∧ plen l ≠ 1) := by
    intro l hl
    exact (hneg l).1 (List.mem_filter.1 hl).2
  have hUind : ∀ l, ¬ (l ∈ pn ∧ plen l ≠ 1) → ∀ c t, U (update c l t) = U c := by
    intro l hl c t
    apply hU
    intro k hk hk'
    have : k ≠ l := by rintro rfl; exact hl ⟨hk, hk'⟩
    rw [update_of_ne this]
  have hFind : ∀ l, a l = 1 → ∀ c t, F (update c l t) = F c := by
    intro l hl c t
    apply hF
    intro k hk
    have : k ≠ l := by rintro rfl; exact hk hl
    rw [update_of_ne this]
  -- the sum over the other axes
  have hinner : ∀ e, sumKeys (T3.map fun l => (l, Λ l)) F e
      = (r : α) * sumKeys (A.map fun l => (l, a l)) F e := by
    intro e
    have h1 : sumKeys (T3.map fun l => (l, Λ l)) F e
        = sumKeys (((T3.filter big) ++ T3.filter fun l => !big l).map fun l => (l, Λ l)) F e :=
      sumKeys_perm ((filter_split T3 big).map _) (by rw [hfst]; exact hT.filter _) _ _
    rw [h1, List.map_append, sumKeys_append]
    have h2 : (sumKeys ((T3.filter fun l => !big l).map fun l => (l, Λ l)) F)
        = fun e => (r : α) * F e := by
      funext e
      rw [sumKeys_const]
      · congr 2
        rw [hr, hT3, List.map_map, List.filter_filter]
        congr 1
        have : (T.filter fun a_1 => (!big a_1) && !in2 a_1)
            = T.filter fun l => decide (¬ (l ∈ pn ∧ plen l ≠ 1) ∧ a l = 1) := by
          apply List.filter_congr
          intro l _
          simp only [hbig, hin2, Bool.decide_and, decide_not, ne_eq]
          cases decide (a l = 1) <;> cases decide (l ∈ pn) <;> cases decide (plen l = 1) <;> rfl
        rw [this]
        rfl
      · intro p hp c t
        obtain ⟨l, hl, rfl⟩ := List.mem_map.1 hp
        refine hFind l ?_ c t
        have := (List.mem_filter.1 hl).2
        simpa [hbig] using this
    rw [h2, sumKeys_mul_left _ F (fun _ => (r : α)) _ (fun _ _ _ _ => rfl)]
    congr 1
    have h3 : sumKeys (A.map fun l => (l, a l)) F e
        = sumKeys (((A.filter big) ++ A.filter fun l => !big l).map fun l => (l, a l)) F e :=
      sumKeys_perm ((filter_split A big).map _) (by rw [hfst]; exact hA) _ _
    rw [h3, List.map_append, sumKeys_append]
    have h4 : (sumKeys ((A.filter fun l => !big l).map fun l => (l, a l)) F) = F := by
      funext e
      apply sumKeys_unit
      intro p hp
      obtain ⟨l, hl, rfl⟩ := List.mem_map.1 hp
      have := (List.mem_filter.1 hl).2
      have hl1 : a l = 1 := by simpa [hbig] using this
      exact ⟨hl1, hFind l hl1⟩
    rw [h4]
    have hperm : (T3.filter big).Perm (A.filter big) := by
      apply perm_of_mem_iff ((hT.filter _).filter _) (hA.filter _)
      intro l
      simp only [List.mem_filter]
      constructor
      · rintro ⟨hl, hb⟩
        have hb' : a l ≠ 1 := by simpa [hbig] using hb
        exact ⟨hA2 l hb' (hnin l (List.mem_filter.2 hl)), hb⟩
      · rintro ⟨hl, hb⟩
        have hb' : a l ≠ 1 := by simpa [hbig] using hb
        refine ⟨⟨(ha l hb').1, ?_⟩, hb⟩
        exact (hneg l).2 (hA1 l hl)
    have hmap : ((T3.filter big).map fun l => (l, Λ l)) = (T3.filter big).map fun l => (l, a l) := by
      apply List.map_congr_left
      intro l hl
      have hb := (List.mem_filter.1 hl).2
      have hb' : a l ≠ 1 := by simpa [hbig] using hb
      rw [(ha l hb').2]
    rw [hmap]
    exact sumKeys_perm (hperm.map _) (by rw [hfst]; exact (hT.filter _).filter _) _ _
  set G : (ν → Nat) → α := fun e => (r : α) * sumKeys (A.map fun l => (l, a l)) F e * U e with hG
  -- the left side
  have hleft : sumKeys (T.map fun l => (l, Λ l)) (fun e => F e * U e) e0
      = sumKeys (T2.map fun l => (l, Λ l)) G e0 := by
    have h1 : sumKeys (T.map fun l => (l, Λ l)) (fun e => F e * U e) e0
        = sumKeys ((T2 ++ T3).map fun l => (l, Λ l)) (fun e => F e * U e) e0 :=
      sumKeys_perm ((filter_split T in2).map _) (by rw [hfst]; exact hT) _ _
    rw [h1, List.map_append, sumKeys_append]
    congr 1
    funext e
    have h2 : (fun e => F e * U e) = fun e => U e * F e := by funext e; rw [mul_comm]
    rw [h2, sumKeys_mul_left]
    · rw [hinner, hG, mul_comm]
    · intro p hp c t
      obtain ⟨l, hl, rfl⟩ := List.mem_map.1 hp
      exact hUind l (hnin l hl) c t
  rw [hleft]
  -- the right side
  have h5 : sumKeys (pn.map fun l => (l, plen l)) G e0
      = sumKeys (((pn.filter in2) ++ pn.filter fun l => !in2 l).map fun l => (l, plen l)) G e0 :=
    sumKeys_perm ((filter_split pn in2).map _) (by rw [hfst]; exact hpn) _ _
  rw [h5, List.map_append, sumKeys_append]
  have h6 : (sumKeys ((pn.filter fun l => !in2 l).map fun l => (l, plen l)) G) = G := by
    funext e
    apply sumKeys_unit
    intro p hp
    obtain ⟨l, hl, rfl⟩ := List.mem_map.1 hp
    obtain ⟨hlp, hl2⟩ := List.mem_filter.1 hl
    have hn : ¬ (l ∈ pn ∧ plen l ≠ 1) := (hneg l).1 hl2
    refine ⟨by by_contra h; exact hn ⟨hlp, h⟩, fun c t => ?_⟩
    simp only [hG]
    rw [hUind l hn]
    congr 2
    apply sumKeys_base _ _ (fun l => a l ≠ 1) hF
    intro k hk hkA
    have : k ≠ l := by
      rintro rfl
      exact hkA (by rw [hfst]; exact hA2 k hk hn)
    rw [update_of_ne this]
  rw [h6]
  have hperm : T2.Perm (pn.filter in2) := by
    apply perm_of_mem_iff (hT.filter _) (hpn.filter _)
    intro l
    simp only [List.mem_filter]
    constructor
    · rintro ⟨_, hb⟩
      have hb' : l ∈ pn ∧ plen l ≠ 1 := by simpa [hin2] using hb
      exact ⟨hb'.1, hb⟩
    · rintro ⟨hl, hb⟩
      exact ⟨hsub l hl, hb⟩
  have hmap : ((pn.filter in2).map fun l => (l, plen l)) = (pn.filter in2).map fun l => (l, Λ l) := by
    apply List.map_congr_left
    intro l hl
    obtain ⟨hlp, hb⟩ := List.mem_filter.1 hl
    have hb' : l ∈ pn ∧ plen l ≠ 1 := by simpa [hin2] using hb
    rcases hplen l hlp with h | h
    · exact absurd h hb'.2
    · rw [h]
  rw [hmap]
  exact sumKeys_perm (hperm.map _) (by rw [hfst]; exact hT.filter _) _ _

omit [CommSemiring α] [DecidableEq ν] in
/-- Inserting unit axes at the positions of the removed names. -/
theorem insert_removed (q : ν → Bool) (g : ν → Nat) (ls : List ν) (pre : List Nat) :
    (((ls.zipIdx pre.length).filter fun x => !q x.1).map (·.2)).foldl (fun s ax => pyInsert s ax 1)
      (pre ++ (ls.filter q).map g) = pre ++ ls.map fun l => if q l then g l else 1 := by
  induction ls generalizing pre with
  | nil => simp
  | cons l ls ih =>
    simp only [List.zipIdx_cons, List.filter_cons, List.map_cons]
    by_cases h : q l = true
    · simp only [h, Bool.not_true, Bool.false_eq_true, if_false, if_true, List.map_cons]
      have := ih (pre ++ [g l])
      simp only [List.length_append, List.length_singleton, List.append_assoc, List.singleton_append]
        at this
      exact this
    · have h' : q l = false := by simpa using h
      simp only [h', Bool.not_false, Bool.false_eq_true, if_false, if_true, List.map_cons,
        List.foldl_cons]
      have hi : pyInsert (pre ++ (ls.filter q).map g) pre.length 1
          = (pre ++ [1]) ++ (ls.filter q).map g := by
        simp [pyInsert]
      rw [hi]
      have := ih (pre ++ [1])
      simp only [List.length_append, List.length_singleton] at this
      rw [this]
      simp

omit [CommSemiring α] in
/-- `np.reshape` restoring the removed axes as unit axes. -/
theorem reshape_names (q : ν → Bool) (g : ν → Nat) (ls : List ν) {y : Arr α}
    (hy : y.shape = (ls.filter q).map g) :
    ∃ z, npReshape y (ls.map fun l => if q l then g l else 1) = .ok z ∧
      z.shape = ls.map (fun l => if q l then g l else 1) ∧
      ∀ c, ValidIn z.shape c → ∃ c', z.get c = y.get c' ∧
        ∀ l ∈ ls, q l = true →
          c' ((ls.filter q).length - 1 - (ls.filter q).idxOf l) = c (ls.length - 1 - ls.idxOf l) := by
  have hprod : (ls.map fun l => if q l then g l else 1).prod = y.shape.prod := by
    rw [hy, prod_filter_ite]
  have hre : npReshape y (ls.map fun l => if q l then g l else 1)
      = .ok { shape := ls.map fun l => if q l then g l else 1
              get := fun c => y.get (unflatR y.shape.reverse
                (flatR (ls.map fun l => if q l then g l else 1).reverse c)) } := by
    unfold npReshape; rw [if_pos hprod]
  refine ⟨_, hre, rfl, ?_⟩
  intro c hc
  have hc2 : ValidR (ls.reverse.map fun l => if q l then g l else 1) c := by
    have := (validIn_iff _ _).1 hc
    rwa [← List.map_reverse] at this
  refine ⟨compressC q ls.reverse c, ?_, ?_⟩
  · apply (npReshape_get hre).2
    · rw [validIn_iff, hy, ← List.map_reverse, ← List.filter_reverse]
      exact compress_valid q g _ c hc2
    · rw [hy, ← List.map_reverse, ← List.map_reverse, ← List.filter_reverse]
      rw [← flatR_compress q g _ c hc2]
  · intro l hl hq
    have hi := List.idxOf_lt_length_of_mem hl
    have hsplit : ls = ls.take (ls.idxOf l) ++ l :: ls.drop (ls.idxOf l + 1) := by
      have h1 := (List.take_append_drop (ls.idxOf l) ls).symm
      rw [List.drop_eq_getElem_cons hi, List.getElem_idxOf hi] at h1
      exact h1
    have hnot : l ∉ ls.take (ls.idxOf l) := by
      rw [List.mem_take_iff_idxOf_lt hl]
      omega
    have h1 := idxOf_filter_append q (ls.take (ls.idxOf l)) (ls.drop (ls.idxOf l + 1)) l hnot hq
    rw [← hsplit] at h1
    rw [h1]
    have h3 := compress_count q ls.reverse c (ls.length - 1 - ls.idxOf l) (by simp; omega) (by
      rw [List.getElem_reverse]
      have e : ls.length - 1 - (ls.length - 1 - ls.idxOf l) = ls.idxOf l := by omega
      simp only [e, List.getElem_idxOf hi]
      exact hq)
    rw [List.take_reverse, List.countP_reverse] at h3
    rw [show ls.length - (ls.length - 1 - ls.idxOf l) = ls.idxOf l + 1 by omega] at h3
    exact h3

end

end Verif
