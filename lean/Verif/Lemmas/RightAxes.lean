import Verif.Model.Gate
import Verif.Lemmas.Message
import Verif.Lemmas.SumOver
import Verif.Lemmas.Indexing
import Verif.Props.MoveAxis
import Verif.Props.SumMultiply

/-! # Helper lemmas: array operations with axes counted from the right -/

namespace Verif
open Spec

theorem movedAt_reflect {n f t j : Nat} (hf : f < n) (ht : t < n) (hj : j < n) :
    movedAt (n - 1 - f) (n - 1 - t) (n - 1 - j) = n - 1 - movedAt f t j := by
  unfold movedAt
  (repeat' split) <;> omega

theorem movedAt_ge {n f t j : Nat} (hf : f < n) (ht : t < n) (hj : n ≤ j) : movedAt f t j = j := by
  unfold movedAt
  (repeat' split) <;> omega

/-- `moveaxis` with both axes counted from the right. -/
theorem moveaxis_right {α : Type _} (X : Arr α) {f t : Nat} (hf : f < X.shape.length) (ht : t < X.shape.length) :
    ∃ Y, moveaxis X (-((f : Int) + 1)) (-((t : Int) + 1)) = .ok Y ∧ Y.shape.length = X.shape.length ∧
      (∀ j, axisLen Y.shape j = axisLen X.shape (movedAt f t j)) ∧
      ∀ c, Y.at c = X.at fun k => c (movedAt t f k) := by
  set n := X.shape.length with hn
  have hF : axisPos n (-((f : Int) + 1)) = n - 1 - f := by unfold axisPos; split <;> omega
  have hT : axisPos n (-((t : Int) + 1)) = n - 1 - t := by unfold axisPos; split <;> omega
  have hm := moveaxis_eq X (f := -((f : Int) + 1)) (t := -((t : Int) + 1)) (by omega) (by omega)
  rw [← hn, hF, hT] at hm
  have hperm := movedOrder_perm (n := n) (f := n - 1 - f) (t := n - 1 - t) (by omega) (by omega)
  have hord := movedOrder_eq (n := n) (f := n - 1 - f) (t := n - 1 - t) (by omega) (by omega)
  set perm := movedOrder n (n - 1 - f) (n - 1 - t) with hpe
  have hax : ∀ j, axisLen (transposeBy X perm).shape j = axisLen X.shape (movedAt f t j) := by
    intro j
    by_cases hj : j < n
    · have hb : movedAt f t j < n := (movedAt_inv hf ht hj).2
      unfold axisLen
      show ((perm.map fun a => X.shape.getD a 0).reverse[j]?).getD 1 = _
      rw [List.getElem?_reverse (by simp [hperm.2.1]; exact hj), List.getElem?_reverse (by rw [← hn]; exact hb)]
      simp only [List.length_map, hperm.2.1, ← hn]
      rw [hord, List.map_map, List.getElem?_map, List.getElem?_range (by omega)]
      simp only [Option.map_some, Option.getD_some, Function.comp]
      rw [movedAt_reflect hf ht hj, List.getD_eq_getElem?_getD,
        List.getElem?_eq_getElem (by omega)]
      rfl
    · rw [movedAt_ge hf ht (by omega), axisLen_of_ge (s := X.shape) (by omega), axisLen_of_ge]
      show (perm.map _).length ≤ j
      rw [List.length_map, hperm.2.1]
      omega
  refine ⟨_, hm, by show (perm.map _).length = n; rw [List.length_map, hperm.2.1], hax, fun c => ?_⟩
  show X.get _ = X.get _
  congr 1
  funext k
  by_cases hk : k < n
  · rw [← hn, if_pos hk]
    have hb : movedAt t f k < n := (movedAt_inv ht hf hk).2
    have hidx : perm.idxOf (n - 1 - k) = n - 1 - movedAt t f k := by
      have h1 : perm[n - 1 - movedAt t f k]'(by rw [hperm.2.1]; omega) = n - 1 - k := by
        simp only [hord, List.getElem_map, List.getElem_range]
        rw [movedAt_reflect hf ht hb, (movedAt_inv ht hf hk).1]
      conv_lhs => rw [← h1]
      exact hperm.1.idxOf_getElem _ _
    rw [hidx]
    have e : n - 1 - (n - 1 - movedAt t f k) = movedAt t f k := by omega
    rw [e]
    unfold restrict
    rw [hax, (movedAt_inv ht hf hk).1]
  · rw [← hn, if_neg hk]
    unfold restrict
    rw [axisLen_of_ge (by omega), if_pos rfl]

/-- Broadcast multiplication of two arrays that fit into `B`. -/
theorem npMul_common {α : Type} [Mul α] {X Y : Arr α} {B : List Nat} (hX : BroadcastsTo X.shape B)
    (hY : BroadcastsTo Y.shape B) :
    ∃ r, npMul X Y = .ok r ∧ IsBroadcast [X.shape, Y.shape] r.shape ∧ BroadcastsTo r.shape B ∧
      ∀ c, r.at c = X.at c * Y.at c := by
  obtain ⟨s, hs, hb⟩ := isBroadcast_of_common hX hY
  refine ⟨⟨s, fun c => X.at c * Y.at c⟩, ?_, hs, hb, fun c => ?_⟩
  · unfold npMul
    rw [(broadcastedShape_ok _ _).2 hs]
    rfl
  · show X.at (restrict s c) * Y.at (restrict s c) = _
    rw [at_isBroadcast hs (by simp) c, at_isBroadcast hs (by simp) c]

/-- Broadcast addition of two arrays that fit into `B`. -/
theorem npAdd_common {α : Type} [Add α] {X Y : Arr α} {B : List Nat} (hX : BroadcastsTo X.shape B)
    (hY : BroadcastsTo Y.shape B) :
    ∃ r, npAdd X Y = .ok r ∧ IsBroadcast [X.shape, Y.shape] r.shape ∧ BroadcastsTo r.shape B ∧
      ∀ c, r.at c = X.at c + Y.at c := by
  obtain ⟨s, hs, hb⟩ := isBroadcast_of_common hX hY
  refine ⟨⟨s, fun c => X.at c + Y.at c⟩, ?_, hs, hb, fun c => ?_⟩
  · unfold npAdd
    rw [(broadcastedShape_ok _ _).2 hs]
    rfl
  · show X.at (restrict s c) + Y.at (restrict s c) = _
    rw [at_isBroadcast hs (by simp) c, at_isBroadcast hs (by simp) c]

theorem names_lastAxes {n L p : Nat} (hn : n ≤ L) (hp : p < L) :
    (∃ a ∈ lastAxes n, Names L a p) ↔ L - n ≤ p := by
  unfold lastAxes Names
  constructor
  · rintro ⟨a, ha, h⟩
    simp only [List.mem_map, List.mem_range] at ha
    obtain ⟨i, hi, rfl⟩ := ha
    omega
  · intro h
    refine ⟨(p : Int) - L, ?_, .inr rfl⟩
    simp only [List.mem_map, List.mem_range]
    exact ⟨p - (L - n), by omega, by omega⟩

theorem filter_lt_range (L m : Nat) (hm : m ≤ L) (S : Nat → Prop) [DecidablePred S]
    (hS : ∀ p < L, S p ↔ m ≤ p) : ((List.range L).filter fun p => ¬ S p) = List.range m := by
  have h1 : (List.range L).filter (fun p => ¬ S p) = (List.range L).filter (fun p => p < m) := by
    apply List.filter_congr
    intro p hp
    rw [List.mem_range] at hp
    simp only [hS p hp, not_le]
  rw [h1]
  obtain ⟨d, rfl⟩ := Nat.exists_eq_add_of_le hm
  rw [List.range_add, List.filter_append, List.filter_eq_self.2, List.filter_eq_nil_iff.2, List.append_nil]
  · intro a ha
    simp only [List.mem_map, List.mem_range] at ha
    obtain ⟨i, _, rfl⟩ := ha
    simp
  · intro a ha
    simpa using List.mem_range.1 ha

/-- Sum of a product over the last `n` axes. -/
theorem sumLast_of_reduction {α : Type} [CommSemiring α] {args : List (Arr α)} {B : List Nat} {n : Nat}
    (hn : n ≤ B.length) (hB : IsBroadcast (args.map (·.shape)) B) {S : Nat → Prop} [DecidablePred S]
    (hS : ∀ p < B.length, S p ↔ B.length - n ≤ p) {y : Arr α} (hy : ReductionOf args B S false y) :
    y.shape = B.take (B.length - n) ∧
      ∀ P p, BroadcastsTo y.shape P → ValidIn P p →
        y.at p = sumOver (B.drop (B.length - n)) fun d => (args.map fun X => X.at (joinC n d p)).prod := by
  obtain ⟨hsh, hval⟩ := hy
  set L := B.length with hL
  have hfil : ((List.range L).filter fun p => ¬ S p) = List.range (L - n) :=
    filter_lt_range L (L - n) (by omega) S hS
  rw [if_neg (by simp), hfil] at hsh
  have hsh' : y.shape = B.take (L - n) := by
    rw [hsh]
    apply List.ext_getElem
    · simp [hL]
    · intro p h1 h2
      have hp : p < L - n := by simpa using h1
      simp only [List.getElem_map, List.getElem_range, List.getElem_take]
      unfold axisLen
      rw [List.getElem?_reverse (by omega)]
      rw [show B.length - 1 - (L - 1 - p) = p by omega, List.getElem?_eq_getElem (by omega)]
      rfl
  refine ⟨hsh', fun P p hP hp => ?_⟩
  -- read at the restricted coordinate
  set q := restrict y.shape p with hq
  have hqv : ValidIn y.shape q := by
    intro k
    rw [hq]
    unfold restrict
    have := hP.2 k
    have := hp k
    split <;> omega
  have hyq : y.at p = y.at q := by
    unfold Arr.at
    congr 1
    funext k
    rw [hq]
    unfold restrict
    split <;> rfl
  have hyl : y.shape.length = L - n := by rw [hsh']; simp [hL]
  have hBax : ∀ k, axisLen B (k + n) = axisLen y.shape k := by
    intro k
    rw [hsh']
    have := axisLen_append (B.take (L - n)) (B.drop (L - n)) (k + n)
    rw [List.take_append_drop] at this
    have e : (B.drop (L - n)).length = n := by simp; omega
    rw [this, e, if_neg (by omega), Nat.add_sub_cancel]
  have hargs : ∀ X ∈ args, ∀ d, X.at (joinC n d p) = X.at (joinC n d q) := by
    intro X hX d
    apply X.at_congr
    intro k hk
    unfold joinC
    split
    · rfl
    · rename_i hkn
      rw [hq]
      unfold restrict
      rw [if_neg]
      intro h1
      have h2 := hBax (k - n)
      rw [h1, show k - n + n = k by omega] at h2
      have := hB.fits k X.shape (List.mem_map.2 ⟨X, hX, rfl⟩)
      rw [h2] at this
      omega
  have hprod : ∀ d, (args.map fun X => X.at (joinC n d p)).prod = (args.map fun X => X.at (joinC n d q)).prod := by
    intro d
    congr 1
    apply List.map_congr_left
    intro X hX
    exact hargs X hX d
  simp only [hprod]
  rw [hyq]
  -- the index list
  set i := (List.range L).map fun r => if r < L - n then q (L - n - 1 - r) else 0 with hi
  have hil : i.length = L := by rw [hi]; simp
  have hgd : ∀ r, r < L → i.getD r 0 = if r < L - n then q (L - n - 1 - r) else 0 := by
    intro r hr
    rw [hi, List.getD_eq_getElem?_getD, List.getElem?_map, List.getElem?_range hr]
    rfl
  have hv := hval i hil (by
    intro r hr hSr
    rw [hgd r hr]
    have hr2 : r < L - n := by
      by_contra hc
      exact hSr ((hS r hr).2 (by omega))
    rw [if_pos hr2]
    have := hqv (L - n - 1 - r)
    rw [← hBax] at this
    rwa [show L - n - 1 - r + n = L - 1 - r by omega] at this)
  rw [if_neg (by simp), hfil] at hv
  have hcoord : coord ((List.range (L - n)).map fun r => i.getD r 0) = q := by
    funext k
    unfold coord
    by_cases hk : k < L - n
    · rw [List.getD_eq_getElem?_getD, List.getElem?_reverse (by simpa using hk)]
      simp only [List.length_map, List.length_range]
      rw [List.getElem?_map, List.getElem?_range (by omega)]
      simp only [Option.map_some, Option.getD_some]
      rw [hgd _ (by omega), if_pos (by omega)]
      congr 1
      omega
    · rw [List.getD_eq_getElem?_getD, List.getElem?_eq_none (by simp; omega)]
      have := hqv k
      rw [axisLen_of_ge (by omega)] at this
      show 0 = q k
      omega
  rw [hcoord] at hv
  rw [hv]
  conv_lhs => rw [← List.take_append_drop (L - n) B, sumOver_append]
  have e : (B.drop (L - n)).length = n := by simp; omega
  rw [e]
  have hci : ∀ k, k < L → coord i k = if n ≤ k then q (k - n) else 0 := by
    intro k hk
    unfold coord
    rw [List.getD_eq_getElem?_getD, List.getElem?_reverse (by omega), hil,
      ← List.getD_eq_getElem?_getD, hgd _ (by omega)]
    by_cases hnk : n ≤ k
    · rw [if_pos hnk, if_pos (by omega)]
      congr 1
      omega
    · rw [if_neg hnk, if_neg (by omega)]
  have hlen1 : (B.take (L - n)).length = L - n := by simp [hL]
  have hcond : ∀ c d : Nat → Nat,
      (∀ k, k < (B.take (L - n) ++ B.drop (L - n)).length → S (L - 1 - k) ∨ joinC n d c k = coord i k) ↔
        ∀ k < (B.take (L - n)).length, c k = q k := by
    intro c d
    rw [List.take_append_drop, ← hL, hlen1]
    constructor
    · intro h k hk
      rcases h (k + n) (by omega) with h | h
      · rw [hS _ (by omega)] at h; omega
      · rw [hci _ (by omega), if_pos (by omega)] at h
        unfold joinC at h
        rw [if_neg (by omega), Nat.add_sub_cancel] at h
        exact h
    · intro h k hk
      by_cases hkn : k < n
      · left; rw [hS _ (by omega)]; omega
      · right
        rw [hci _ hk, if_pos (by omega)]
        unfold joinC
        rw [if_neg hkn]
        exact h _ (by omega)
  have hstep : ∀ c : Nat → Nat, (sumOver (B.drop (L - n)) fun d =>
      if ∀ k, k < L → S (L - 1 - k) ∨ joinC n d c k = coord i k then
        (args.map fun X => X.at (joinC n d c)).prod else 0) =
      if ∀ k < (B.take (L - n)).length, c k = q k then
        sumOver (B.drop (L - n)) fun d => (args.map fun X => X.at (joinC n d c)).prod else 0 := by
    intro c
    have hc2 : ∀ d, (∀ k, k < L → S (L - 1 - k) ∨ joinC n d c k = coord i k) ↔
        ∀ k < (B.take (L - n)).length, c k = q k := by
      intro d
      have := hcond c d
      rwa [List.take_append_drop, ← hL] at this
    by_cases h : ∀ k < (B.take (L - n)).length, c k = q k
    · rw [if_pos h]
      apply sumOver_congr
      intro j _
      rw [if_pos ((hc2 _).2 h)]
    · rw [if_neg h]
      refine Eq.trans (sumOver_congr _ fun j _ => ?_) (sumOver_zero (B.drop (L - n)) (α := α))
      exact if_neg (fun hh => h ((hc2 _).1 hh))
  simp only [hstep]
  rw [sumOver_single (B.take (L - n))
    (fun c => sumOver (B.drop (L - n)) fun d => (args.map fun X => X.at (joinC n d c)).prod) q
    (fun k _ => by have := hqv k; rwa [hsh'] at this)]
  have : (fun k => if k < (B.take (L - n)).length then q k else 0) = q := by
    funext k
    rw [hlen1]
    split
    · rfl
    · have := hqv k
      rw [axisLen_of_ge (by omega)] at this
      omega
  rw [this]

end Verif
