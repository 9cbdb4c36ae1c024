import Verif.Lemmas.Tile
import Verif.Lemmas.Collapse
import Verif.Lemmas.ToPlates
import Mathlib.Algebra.BigOperators.Ring.List

/-!
# C13: `tile`

The parent has plates `P` and variable axes `D`; the child has plates `multiply_shapes(P, tiles)`, whose
axis `k` (from the right) has length `P_k * T_k`.  Copy `τ` of the plate `p` is the plate `p + P * τ`.
-/

namespace Verif
open Spec Function

/-- The plate of the child that is copy `τ` of the plate `p` of the parent. -/
abbrev copyC (P : List Nat) (p τ : Nat → Nat) : Nat → Nat := fun k => p k + axisLen P k * τ k

/-- Summing over axes on which the summand does not depend. -/
theorem sumOver_const_axes {α : Type} [CommSemiring α] (U : Nat → Prop) [DecidablePred U] :
    ∀ (T : List Nat) (f : (Nat → Nat) → α),
      (∀ c c', (∀ k, ¬ U k → c k = c' k) → f c = f c') →
      sumOver T f = ((T.mapIdx fun i d => if U (T.length - 1 - i) then d else 1).prod : Nat) *
        sumOver (T.mapIdx fun i d => if U (T.length - 1 - i) then 1 else d) f := by
  intro T
  induction T with
  | nil => intro f _; simp
  | cons d ds ih =>
    intro f hf
    have e1 : ((d :: ds).mapIdx fun i x => if U ((d :: ds).length - 1 - i) then x else 1) =
        (if U ds.length then d else 1) :: ds.mapIdx fun i x => if U (ds.length - 1 - i) then x else 1 := by
      rw [List.mapIdx_cons]
      congr 1
      apply List.ext_getElem
      · simp
      · intro i h1 h2
        simp only [List.getElem_mapIdx, List.length_cons]
        simp only [show ds.length + 1 - 1 - (i + 1) = ds.length - 1 - i by omega]
    have e2 : ((d :: ds).mapIdx fun i x => if U ((d :: ds).length - 1 - i) then 1 else x) =
        (if U ds.length then 1 else d) :: ds.mapIdx fun i x => if U (ds.length - 1 - i) then 1 else x := by
      rw [List.mapIdx_cons]
      congr 1
      apply List.ext_getElem
      · simp
      · intro i h1 h2
        simp only [List.getElem_mapIdx, List.length_cons]
        simp only [show ds.length + 1 - 1 - (i + 1) = ds.length - 1 - i by omega]
    rw [e1, e2, sumOver_cons, sumOver_cons, List.prod_cons]
    have hlen : (ds.mapIdx fun i x => if U (ds.length - 1 - i) then 1 else x).length = ds.length := by simp
    rw [hlen]
    have hstep : ∀ t, sumOver ds (fun c => f (update c ds.length t)) =
        ((ds.mapIdx fun i x => if U (ds.length - 1 - i) then x else 1).prod : Nat) *
        sumOver (ds.mapIdx fun i x => if U (ds.length - 1 - i) then 1 else x)
          (fun c => f (update c ds.length t)) := by
      intro t
      apply ih
      intro c c' h
      apply hf
      intro k hk
      by_cases hkl : k = ds.length
      · subst hkl; simp
      · rw [update_of_ne hkl, update_of_ne hkl]; exact h k hk
    by_cases hu : U ds.length
    · rw [if_pos hu, if_pos hu, Finset.sum_range_one]
      have hind : ∀ t, sumOver ds (fun c => f (update c ds.length t)) =
          sumOver ds (fun c => f (update c ds.length 0)) := by
        intro t
        apply sumOver_congr
        intro i _
        apply hf
        intro k hk
        by_cases hkl : k = ds.length
        · subst hkl; exact absurd hu hk
        · rw [update_of_ne hkl, update_of_ne hkl]
      rw [Finset.sum_congr rfl (fun t _ => hind t), Finset.sum_const, Finset.card_range, hstep 0,
        nsmul_eq_mul, Nat.cast_mul, mul_assoc]
    · rw [if_neg hu, if_neg hu, Nat.one_mul, Finset.mul_sum]
      exact Finset.sum_congr rfl fun t _ => hstep t

theorem sumOver_ones {α : Type} [AddCommMonoid α] (n : Nat) (f : (Nat → Nat) → α) :
    sumOver (List.replicate n 1) f = f fun _ => 0 := by
  induction n generalizing f with
  | zero => exact sumOver_nil f
  | succ n ih =>
    rw [List.replicate_succ, sumOver_cons, Finset.sum_range_one, ih, List.length_replicate]
    congr 1
    funext k
    by_cases h : k = n
    · subst h; simp
    · rw [update_of_ne h]

theorem sumOver_padOnes {α : Type} [AddCommMonoid α] (n : Nat) (s : List Nat) (f : (Nat → Nat) → α) :
    sumOver (padOnes n s) f = sumOver s f := by
  unfold padOnes
  rw [sumOver_append, sumOver_ones]
  apply sumOver_congr
  intro i hi
  congr 1
  funext k
  unfold joinC
  split
  · rfl
  · have := coord_valid hi k
    rw [axisLen_of_ge (by omega)] at this
    show 0 = coord i k
    omega

theorem getElem_eq_axisLen (l : List Nat) (i : Nat) (hi : i < l.length) :
    l[i] = axisLen l (l.length - 1 - i) := by
  unfold axisLen
  rw [List.getElem?_reverse (by omega)]
  have : l.length - 1 - (l.length - 1 - i) = i := by omega
  simp only [this, List.getElem?_eq_getElem hi, Option.getD_some]

theorem padOnes_getElem (n : Nat) (s : List Nat) (hs : (padOnes n s).length = n) (i : Nat)
    (hi : i < (padOnes n s).length) : (padOnes n s)[i] = axisLen s (n - 1 - i) := by
  rw [getElem_eq_axisLen, axisLen_padOnes]
  simp only [hs]

theorem sumOver_append_ones {α : Type} [AddCommMonoid α] (n : Nat) (s : List Nat) (f : (Nat → Nat) → α) :
    sumOver (s ++ List.replicate n 1) f = sumOver s fun c => f (joinC n (fun _ => 0) c) := by
  rw [sumOver_append]
  apply sumOver_congr
  intro i _
  rw [sumOver_ones, List.length_replicate]

/-- The part of the message and of the mask computation before the leading axes are squeezed: `F` are the
tiles of all axes and `Q` the full shape of the parent. -/
theorem tileCore {α : Type} [CommSemiring α] (F Q : List Nat) (m : Arr α)
    (hm : BroadcastsTo m.shape (multiplyShapes Q F)) (n : Nat) (hn : n = max Q.length F.length) (hpos : 0 < n) :
    let q := (padOnes n m.shape).zip ((padOnes n F).zip (padOnes n Q))
    let r : Nat := (q.map fun p => if p.1 = 1 then p.2.1 else 1).prod
    let shape := q.map fun p => if p.1 = 1 then 1 else p.2.2
    let tiles := q.map fun p => if p.1 = 1 then 1 else p.2.1
    ∃ y, tileReduce m tiles shape = .ok y ∧ y.shape.length = n ∧
      (∀ k, axisLen y.shape k = if axisLen m.shape k = 1 then 1 else axisLen Q k) ∧
      ∀ c, ValidIn Q c → (r : α) * y.at c = sumOver F fun τ => m.at (copyC Q c τ) := by
  intro q r shape tiles
  have hml : m.shape.length ≤ n := by
    have := hm.1
    rw [length_multiplyShapes] at this
    omega
  have l1 : (padOnes n m.shape).length = n := length_padOnes hml
  have l2 : (padOnes n F).length = n := length_padOnes (by omega)
  have l3 : (padOnes n Q).length = n := length_padOnes (by omega)
  have hql : q.length = n := by simp [q, l1, l2, l3]
  -- entry `k` from the right
  have hqk : ∀ i (hi : i < q.length), q[i] =
      (axisLen m.shape (n - 1 - i), axisLen F (n - 1 - i), axisLen Q (n - 1 - i)) := by
    intro i hi
    have hp : ∀ s : List Nat, (hs : (padOnes n s).length = n) →
        (padOnes n s)[i]'(by omega) = axisLen s (n - 1 - i) := by
      intro s hs
      exact padOnes_getElem n s hs i _
    simp only [q, List.getElem_zip, hp _ l1, hp _ l2, hp _ l3]
  have hgen : ∀ g : Nat × Nat × Nat → Nat, g (1, 1, 1) = 1 → ∀ k,
      axisLen (q.map g) k = g (axisLen m.shape k, axisLen F k, axisLen Q k) := by
    intro g hg k
    by_cases hk : k < n
    · unfold axisLen
      rw [List.getElem?_reverse (by simp; omega), List.getElem?_map, List.length_map, hql,
        List.getElem?_eq_getElem (by omega), hqk, show n - 1 - (n - 1 - k) = k by omega]
      rfl
    · rw [axisLen_of_ge (by simp; omega), axisLen_of_ge (s := m.shape) (by omega), axisLen_of_ge (s := F) (by omega),
        axisLen_of_ge (s := Q) (by omega), hg]
  have hsax : ∀ k, axisLen shape k = if axisLen m.shape k = 1 then 1 else axisLen Q k :=
    hgen (fun p => if p.1 = 1 then 1 else p.2.2) rfl
  have htax : ∀ k, axisLen tiles k = if axisLen m.shape k = 1 then 1 else axisLen F k :=
    hgen (fun p => if p.1 = 1 then 1 else p.2.1) rfl
  have hmax : ∀ k, axisLen m.shape k = axisLen tiles k * axisLen shape k := by
    intro k
    rw [hsax, htax]
    split
    · rename_i h; rw [h]
    · rename_i h
      have := hm.2 k
      rw [axisLen_multiplyShapes] at this
      rw [Nat.mul_comm]
      omega
  obtain ⟨y, hy, hys, hyget⟩ := tileReduce_ok m tiles shape (by simp [tiles, shape]) (by simp [shape]; omega)
    (by simp [shape]; omega) hmax
  refine ⟨y, hy, by rw [hys]; simp [shape, hql], by rw [hys]; exact hsax, ?_⟩
  intro c hc
  have hcv : ValidIn shape (restrict shape c) := by
    intro k
    unfold restrict
    rw [hsax]
    have := hc k
    by_cases h : axisLen m.shape k = 1
    · simp only [if_pos h, if_true]; omega
    · simp only [if_neg h]
      split <;> omega
  have hyat : y.at c = sumOver tiles fun τ => m.at (copyC Q c τ) := by
    show y.get (restrict y.shape c) = _
    rw [hys, hyget _ hcv]
    apply sumOver_congr
    intro i hi
    have hτ := coord_valid hi
    show _ = m.get (restrict m.shape _)
    congr 1
    funext k
    show restrict shape c k + axisLen shape k * coord i k = restrict m.shape _ k
    have h1 := hτ k
    rw [htax] at h1
    unfold restrict
    rw [hsax]
    by_cases h : axisLen m.shape k = 1
    · simp only [if_pos h] at h1 ⊢
      simp only [if_true]
      omega
    · simp only [if_neg h]
      have := hc k
      split
      · rename_i hq
        rw [hq] at this ⊢
        show _ = c k + axisLen Q k * coord i k
        rw [hq]
        omega
      · rfl
  rw [hyat, ← sumOver_padOnes n F]
  rw [sumOver_const_axes (fun k => axisLen m.shape k = 1) (padOnes n F)]
  · have hr : (padOnes n F).mapIdx (fun i d => if axisLen m.shape ((padOnes n F).length - 1 - i) = 1 then d else 1) =
        q.map fun p => if p.1 = 1 then p.2.1 else 1 := by
      apply List.ext_getElem
      · simp [hql, l2]
      · intro i h1 h2
        have hi : i < q.length := by simpa using h2
        rw [List.getElem_mapIdx, List.getElem_map, hqk i hi]
        simp only [l2, padOnes_getElem n F l2]
    have ht : (padOnes n F).mapIdx (fun i d => if axisLen m.shape ((padOnes n F).length - 1 - i) = 1 then 1 else d) =
        tiles := by
      apply List.ext_getElem
      · simp [tiles, hql, l2]
      · intro i h1 h2
        have hi : i < q.length := by simpa [tiles] using h2
        rw [List.getElem_mapIdx]
        show _ = (q.map fun p => if p.1 = 1 then 1 else p.2.1)[i]'(by simpa using hi)
        rw [List.getElem_map, hqk i hi]
        simp only [l2, padOnes_getElem n F l2]
    rw [hr, ht]
  · intro τ τ' h
    apply m.at_congr
    intro k hk
    show c k + _ * τ k = c k + _ * τ' k
    rw [h k hk]

/-- **C13** The plates of the child, and back. -/
theorem C13_plates (T P : List Nat) (hT : ∀ t ∈ T, t ≠ 0) :
    (∀ k, axisLen (tilePlatesFromParent T P) k = axisLen P k * axisLen T k) ∧
      (tilePlatesFromParent T P).length = max P.length T.length ∧
      tilePlatesToParent T (tilePlatesFromParent T P) = .ok (padOnes (max P.length T.length) P) := by
  refine ⟨axisLen_multiplyShapes P T, length_multiplyShapes P T, ?_⟩
  unfold tilePlatesToParent
  have hl : (tilePlatesFromParent T P).length = max P.length T.length := length_multiplyShapes P T
  rw [if_neg (by omega), if_neg (fun h => hT 0 h rfl)]
  congr 1
  have e1 : (tilePlatesFromParent T P) = List.zipWith (· * ·) (padOnes (max P.length T.length) P)
      (padOnes (max P.length T.length) T) := rfl
  apply List.ext_getElem
  · rw [length_padOnes (by omega)]
    simp [hl]
  · intro i h1 h2
    rw [length_padOnes (by omega)] at h2
    have hC : ∀ j (hj : j < (tilePlatesFromParent T P).length), (tilePlatesFromParent T P)[j] =
        (padOnes (max P.length T.length) P)[j]'(by rw [length_padOnes (by omega)]; omega) *
        (padOnes (max P.length T.length) T)[j]'(by rw [length_padOnes (by omega)]; omega) := by
      intro j hj
      simp only [e1, List.getElem_zipWith]
    by_cases hi : i < max P.length T.length - T.length
    · rw [List.getElem_append_left (by simp [hl]; omega), List.getElem_take, hC]
      have : (padOnes (max P.length T.length) T)[i]'(by rw [length_padOnes (by omega)]; omega) = 1 := by
        unfold padOnes
        rw [List.getElem_append_left (by simpa using hi), List.getElem_replicate]
      rw [this, Nat.mul_one]
    · rw [List.getElem_append_right (by simp [hl]; omega), List.getElem_zipWith, List.getElem_drop]
      have hlt : (List.take ((tilePlatesFromParent T P).length - T.length) (tilePlatesFromParent T P)).length =
          max P.length T.length - T.length := by simp [hl]
      have hidx : (tilePlatesFromParent T P).length - T.length + (i - (List.take
          ((tilePlatesFromParent T P).length - T.length) (tilePlatesFromParent T P)).length) = i := by
        rw [hlt, hl]; omega
      simp only [hidx, hC]
      have hTi : (padOnes (max P.length T.length) T)[i]'(by rw [length_padOnes (by omega)]; omega) =
          T[i - (List.take ((tilePlatesFromParent T P).length - T.length) (tilePlatesFromParent T P)).length]'(by
            rw [hlt]; omega) := by
        simp only [padOnes]
        rw [List.getElem_append_right (by simpa using hi)]
        simp only [List.length_replicate, hlt]
      rw [hTi]
      exact Nat.mul_div_cancel _ (Nat.pos_of_ne_zero (hT _ (List.getElem_mem _)))

section
variable {α : Type} [CommSemiring α] (T P D : List Nat)

theorem axisLen_tilesInd (k : Nat) :
    axisLen (T ++ List.replicate D.length 1) k = if k < D.length then 1 else axisLen T (k - D.length) := by
  rw [axisLen_append, List.length_replicate]
  split
  · exact axisLen_replicate_one _ _
  · rfl

theorem full_broadcasts (m : Arr α)
    (hm : BroadcastsTo m.shape (tilePlatesFromParent T P ++ D)) :
    BroadcastsTo m.shape (multiplyShapes (P ++ D) (T ++ List.replicate D.length 1)) := by
  refine ⟨?_, fun k => ?_⟩
  · have := hm.1
    rw [List.length_append, tilePlatesFromParent, length_multiplyShapes] at this
    rw [length_multiplyShapes]
    simp
    omega
  · have := hm.2 k
    rw [axisLen_append, tilePlatesFromParent, axisLen_multiplyShapes] at this
    rw [axisLen_multiplyShapes, axisLen_tilesInd, axisLen_append]
    split <;> simp_all

/-- **C13** The message to the parent is the sum of the child's message over all copies. -/
theorem C13_message (m : Arr α) (hm : BroadcastsTo m.shape (tilePlatesFromParent T P ++ D))
    (hne : 0 < max (P ++ D).length (T ++ D).length) :
    ∃ y, tileMessage T (padOnes (max P.length T.length) P) D (P ++ D).length m = .ok y ∧
      BroadcastsTo y.shape (P ++ D) ∧
      ∀ d p, ValidIn D d → ValidIn P p →
        y.at (joinC D.length d p) = sumOver T fun τ => m.at (joinC D.length d (copyC P p τ)) := by
  set F := T ++ List.replicate D.length 1 with hF
  have hFl : F.length = T.length + D.length := by simp [hF]
  have hfull := full_broadcasts T P D m hm
  -- the padded plates do not matter
  set Q := padOnes (max P.length T.length) P ++ D with hQ
  have hQl : Q.length = max P.length T.length + D.length := by
    rw [hQ, List.length_append, length_padOnes (by omega)]
  have hQax : ∀ k, axisLen Q k = axisLen (P ++ D) k := by
    intro k
    rw [hQ, axisLen_append, axisLen_append, axisLen_padOnes]
  have hmQ : BroadcastsTo m.shape (multiplyShapes Q F) := by
    refine ⟨?_, fun k => ?_⟩
    · have := hfull.1
      rw [length_multiplyShapes] at this ⊢
      simp only [List.length_append, List.length_replicate] at this
      omega
    · have := hfull.2 k
      rw [axisLen_multiplyShapes] at this ⊢
      rw [hQax]
      exact this
  have hml : m.shape.length ≤ max Q.length F.length := by
    have := hmQ.1
    rwa [length_multiplyShapes] at this
  have hn : max F.length (max Q.length m.shape.length) = max Q.length F.length := by omega
  obtain ⟨y, hy, hyl, hyax, hyat⟩ := tileCore F Q m hmQ (max F.length (max Q.length m.shape.length)) hn (by
    simp only [List.length_append] at hne
    omega)
  set n := max F.length (max Q.length m.shape.length)
  set r := (((padOnes n m.shape).zip ((padOnes n F).zip (padOnes n Q))).map fun p =>
    if p.1 = 1 then p.2.1 else 1).prod with hr
  have hsq : ∀ i, (P ++ D).length ≤ i → axisLen (npScale r y : Arr α).shape i = 1 := by
    intro i hi
    show axisLen y.shape i = 1
    rw [hyax, hQax, axisLen_of_ge hi, ite_self]
  obtain ⟨z, hz, hzl, hzax, hzat⟩ := squeezeToDim_ok hsq
  refine ⟨z, ?_, ⟨?_, fun k => ?_⟩, fun d p hd hp => ?_⟩
  · unfold tileMessage
    simp only []
    rw [hy]
    exact hz
  · omega
  · rw [hzax]
    show axisLen y.shape k = 1 ∨ axisLen y.shape k = _
    rw [hyax, hQax]
    split
    · exact .inl rfl
    · exact .inr rfl
  · have hv : ValidIn Q (joinC D.length d p) := by
      intro k
      rw [hQax]
      exact validIn_joinC hd hp k
    rw [hzat, npScale_at, hyat _ hv, hF, sumOver_append_ones]
    apply sumOver_congr
    intro i _
    congr 1
    funext k
    show joinC D.length d p k + axisLen Q k * joinC D.length (fun _ => 0) (coord i) k =
      joinC D.length d (copyC P p (coord i)) k
    rw [hQax, axisLen_append]
    unfold joinC
    split
    · simp
    · rfl

/-- **C13** The moments are the repeated moments of the parent. -/
theorem C13_moments (u : Arr α) (hu : BroadcastsTo u.shape (P ++ D)) :
    BroadcastsTo (tileMoments T D u).shape (tilePlatesFromParent T P ++ D) ∧
      ∀ d p τ, ValidIn D d → ValidIn P p → ValidIn T τ →
        (tileMoments T D u).at (joinC D.length d (copyC P p τ)) = u.at (joinC D.length d p) := by
  have htot : ∀ k, axisLen (tilePlatesFromParent T P ++ D) k =
      axisLen (P ++ D) k * axisLen (T ++ List.replicate D.length 1) k := by
    intro k
    rw [axisLen_append, axisLen_append, axisLen_tilesInd, tilePlatesFromParent, axisLen_multiplyShapes]
    split <;> simp
  have htotl : (tilePlatesFromParent T P ++ D).length = max P.length T.length + D.length := by
    rw [List.length_append, tilePlatesFromParent, length_multiplyShapes]
  have hul := hu.1
  rw [List.length_append] at hul
  unfold tileMoments
  by_cases h0 : u.shape.length > 0
  · rw [if_pos h0]
    simp only []
    set F := T ++ List.replicate D.length 1 with hF
    set nd := min F.length u.shape.length with hnd
    set F1 := (if nd = 0 then F else F.drop (F.length - nd)) with hF1
    have hF1l : F1.length = nd := by
      rw [hF1]
      split
      · rename_i h; omega
      · simp; omega
    have hF1ax : ∀ k, k < u.shape.length → axisLen F1 k = axisLen F k := by
      intro k hk
      rw [hF1]
      split
      · rfl
      · by_cases hkF : k < F.length
        · unfold axisLen
          rw [List.reverse_drop, List.getElem?_take, if_pos (by omega)]
        · rw [axisLen_of_ge (s := F) (by omega), axisLen_of_ge (by simp; omega)]
    set F2 := padOnes (max F1.length u.shape.length) F1 with hF2
    have hF2l : F2.length = u.shape.length := by rw [hF2, length_padOnes (by omega)]; omega
    set F3 := (F2.zip u.shape).map (fun p => if p.2 > 1 then p.1 else 1) with hF3
    have hF3l : F3.length = u.shape.length := by simp [hF3, hF2l]
    have hF3ax : ∀ k, k < u.shape.length → axisLen F3 k = if axisLen u.shape k > 1 then axisLen F k else 1 := by
      intro k hk
      have h1 : axisLen F2 k = axisLen F k := by rw [hF2, axisLen_padOnes, hF1ax k hk]
      rw [← h1]
      have h2 : F3 = List.zipWith (fun t sh => if sh > 1 then t else 1) F2 u.shape := by
        rw [hF3, List.zip, List.map_zipWith]
      rw [h2, axisLen_zipWith _ (by simp) _ _ hF2l]
    have hvax : ∀ k, axisLen (npTile u F3).shape k =
        if axisLen u.shape k > 1 then axisLen u.shape k * axisLen F k else axisLen u.shape k := by
      intro k
      show axisLen (List.zipWith (· * ·) u.shape F3) k = _
      rw [axisLen_zipWith _ rfl _ _ hF3l.symm]
      by_cases hk : k < u.shape.length
      · rw [hF3ax k hk]
        split <;> simp
      · rw [axisLen_of_ge (by omega), axisLen_of_ge (s := F3) (by omega)]
        simp
    refine ⟨⟨?_, fun k => ?_⟩, fun d p τ hd hp hτ => ?_⟩
    · show (List.zipWith (· * ·) u.shape F3).length ≤ _
      rw [List.length_zipWith, htotl]
      omega
    · rw [hvax, htot]
      have := hu.2 k
      split
      · rename_i h
        right
        rcases this with h' | h'
        · omega
        · rw [h']
      · rename_i h
        rcases this with h' | h'
        · exact .inl h'
        · by_cases h1 : axisLen u.shape k = 1
          · exact .inl h1
          · right
            have : axisLen u.shape k = 0 := by omega
            rw [← h', this]; simp
    · show u.get (fun k => restrict (npTile u F3).shape _ k % axisLen u.shape k) = u.get (restrict u.shape _)
      congr 1
      funext k
      have huk := hu.2 k
      have hpk : joinC D.length d p k < axisLen (P ++ D) k := validIn_joinC hd hp k
      by_cases h1 : axisLen u.shape k = 1
      · rw [h1, Nat.mod_one]
        unfold restrict
        rw [if_pos h1]
      · have heq : axisLen u.shape k = axisLen (P ++ D) k := by omega
        unfold restrict
        rw [hvax, if_neg h1]
        by_cases h0 : axisLen u.shape k = 0
        · omega
        · rw [if_pos (show axisLen u.shape k > 1 by omega)]
          have hjc : joinC D.length d (copyC P p τ) k = joinC D.length d p k +
              axisLen (P ++ D) k * (if k < D.length then 0 else τ (k - D.length)) := by
            rw [axisLen_append]
            unfold joinC copyC
            split <;> simp
          have hτF : (if k < D.length then 0 else τ (k - D.length)) < axisLen F k := by
            rw [hF, axisLen_tilesInd]
            split
            · omega
            · exact hτ _
          rw [hjc, heq]
          split
          · rename_i hz
            have : axisLen (P ++ D) k = 1 := Nat.eq_one_of_mul_eq_one_right hz
            omega
          · rw [Nat.add_mul_mod_self_left, Nat.mod_eq_of_lt hpk]
  · rw [if_neg h0]
    have hs : u.shape = [] := List.eq_nil_of_length_eq_zero (by omega)
    refine ⟨⟨by omega, fun k => .inl ?_⟩, fun d p τ _ _ _ => ?_⟩
    · rw [hs]; rfl
    · apply u.at_congr
      intro k hk
      rw [hs] at hk
      exact absurd rfl hk

end

/-- Adding up over the plates of the child is adding up over the plates of the parent and the copies. -/
theorem sumOver_copies {α : Type} [AddCommMonoid α] (P T : List Nat) (f : (Nat → Nat) → α) :
    sumOver (multiplyShapes P T) f = sumOver P fun p => sumOver T fun τ => f (copyC P p τ) := by
  have key : ∀ (l : List (Nat × Nat)) (f : (Nat → Nat) → α),
      sumOver (l.map fun q => q.1 * q.2) f = sumOver (l.map (·.1)) fun p => sumOver (l.map (·.2)) fun τ =>
        f (copyC (l.map (·.1)) p τ) := by
    intro l
    induction l with
    | nil =>
      intro f
      simp only [List.map_nil, sumOver_nil]
      congr 1
    | cons q l ih =>
      intro f
      obtain ⟨a, b⟩ := q
      simp only [List.map_cons]
      rw [sumOver_cons, sumOver_cons]
      simp only [sumOver_cons, List.length_map]
      have hsplit : ∀ g : Nat → α, ∑ t ∈ Finset.range (a * b), g t =
          ∑ i ∈ Finset.range a, ∑ j ∈ Finset.range b, g (i + a * j) := by
        intro g
        rw [Finset.sum_comm]
        rw [Nat.mul_comm]
        induction b with
        | zero => simp
        | succ b ihb =>
          rw [Nat.succ_mul, Finset.sum_range_add, ihb, Finset.sum_range_succ]
          congr 1
          apply Finset.sum_congr rfl
          intro i _
          congr 1
          rw [Nat.mul_comm]
          omega
      rw [hsplit]
      apply Finset.sum_congr rfl
      intro i _
      rw [sumOver_sum]
      apply Finset.sum_congr rfl
      intro j _
      rw [ih]
      apply sumOver_congr
      intro p _
      apply sumOver_congr
      intro τ _
      congr 1
      funext k
      by_cases hk : k = l.length
      · subst hk
        rw [update_self]
        unfold copyC
        rw [update_self, update_self, axisLen_cons, List.length_map, if_pos rfl]
      · rw [update_of_ne hk]
        unfold copyC
        rw [update_of_ne hk, update_of_ne hk, axisLen_cons, List.length_map, if_neg hk]
  set n := max P.length T.length with hn
  have h1 : (padOnes n P).length = n := length_padOnes (by omega)
  have h2 : (padOnes n T).length = n := length_padOnes (by omega)
  have := key ((padOnes n P).zip (padOnes n T)) f
  rw [List.map_fst_zip (by omega), List.map_snd_zip (by omega)] at this
  have e : ((padOnes n P).zip (padOnes n T)).map (fun q => q.1 * q.2) = multiplyShapes P T := by
    unfold multiplyShapes
    rw [List.zip, List.map_zipWith]
  rw [e, sumOver_padOnes] at this
  rw [this]
  apply sumOver_congr
  intro i _
  rw [sumOver_padOnes]
  apply sumOver_congr
  intro j _
  congr 1
  funext k
  unfold copyC
  rw [axisLen_padOnes]

/-- **C13** `tile` is adjoint. -/
theorem C13_adjoint {α : Type} [CommSemiring α] (T P D : List Nat) (u m : Arr α)
    (hu : BroadcastsTo u.shape (P ++ D)) (hm : BroadcastsTo m.shape (tilePlatesFromParent T P ++ D))
    (hne : 0 < max (P ++ D).length (T ++ D).length) :
    ∃ y, tileMessage T (padOnes (max P.length T.length) P) D (P ++ D).length m = .ok y ∧
      sumOver (tilePlatesFromParent T P ++ D) (fun c => m.at c * (tileMoments T D u).at c) =
        sumOver (P ++ D) fun c => y.at c * u.at c := by
  obtain ⟨y, hy, _, hyat⟩ := C13_message T P D m hm hne
  obtain ⟨_, hvat⟩ := C13_moments T P D u hu
  refine ⟨y, hy, ?_⟩
  rw [sumOver_append, sumOver_append, tilePlatesFromParent, sumOver_copies]
  apply sumOver_congr
  intro ip hip
  have hp := coord_valid hip
  rw [sumOver_comm]
  apply sumOver_congr
  intro id hid
  have hd := coord_valid hid
  rw [hyat _ _ hd hp, ← sumOver_mul_right]
  apply sumOver_congr
  intro iτ hiτ
  rw [hvat _ _ _ hd hp (coord_valid hiτ)]

/-- **C13** Masks: a plate of the parent is active iff one of its copies is. -/
theorem C13_mask (T P : List Nat) (mask : Arr Bool) (hm : BroadcastsTo mask.shape (tilePlatesFromParent T P))
    (hT : ∀ t ∈ T, t ≠ 0) (hne : 0 < max P.length T.length) :
    ∃ w, tileWeights T (padOnes (max P.length T.length) P) P.length mask = .ok w ∧
      BroadcastsTo w.shape P ∧
      ∀ p, ValidIn P p → (w.at p = true ↔ ∃ τ, ValidIn T τ ∧ mask.at (copyC P p τ) = true) := by
  set Q := padOnes (max P.length T.length) P with hQ
  have hQl : Q.length = max P.length T.length := length_padOnes (by omega)
  have hQax : ∀ k, axisLen Q k = axisLen P k := axisLen_padOnes _ _
  let mN : Arr Nat := { shape := mask.shape, get := fun c => if mask.get c then 1 else 0 }
  have hmQ : BroadcastsTo mN.shape (multiplyShapes Q T) := by
    refine ⟨?_, fun k => ?_⟩
    · have := hm.1
      rw [tilePlatesFromParent, length_multiplyShapes] at this
      rw [length_multiplyShapes]
      show mask.shape.length ≤ _
      omega
    · have := hm.2 k
      rw [tilePlatesFromParent, axisLen_multiplyShapes] at this
      rw [axisLen_multiplyShapes, hQax]
      exact this
  have hml : mask.shape.length ≤ max Q.length T.length := by
    have := hmQ.1
    rwa [length_multiplyShapes] at this
  obtain ⟨y, hy, hyl, hyax, hyat⟩ := tileCore T Q mN hmQ (max Q.length (max T.length mask.shape.length)) (by
    omega) (by omega)
  set n := max Q.length (max T.length mask.shape.length)
  have hsq : ∀ i, P.length ≤ i → axisLen y.shape i = 1 := by
    intro i hi
    rw [hyax, hQax, axisLen_of_ge hi, ite_self]
  obtain ⟨z, hz, hzl, hzax, hzat⟩ := squeezeToDim_ok hsq
  refine ⟨{ shape := z.shape, get := fun c => z.get c != 0 }, ?_, ⟨?_, fun k => ?_⟩, fun p hp => ?_⟩
  · unfold tileWeights
    simp only []
    rw [show tileReduce ({ shape := mask.shape, get := fun c => if mask.get c then 1 else 0 } : Arr Nat) _ _ = .ok y from hy]
    show (squeezeToDim y P.length >>= _) = _
    rw [hz]
    rfl
  · show z.shape.length ≤ _
    omega
  · show axisLen z.shape k = 1 ∨ axisLen z.shape k = _
    rw [hzax, hyax, hQax]
    split
    · exact .inl rfl
    · exact .inr rfl
  · show (z.at p != 0) = true ↔ _
    have h1 := hyat p (fun k => by rw [hQax]; exact hp k)
    rw [bne_iff_ne, ne_eq, hzat]
    have hr : ∀ (r : Nat), r ≠ 0 → (y.at p = 0 ↔ r * y.at p = 0) := by
      intro r hr
      rw [Nat.mul_eq_zero]
      omega
    have hq : ∀ i (hi : i < (padOnes n T).length), (padOnes n T)[i] ≠ 0 := by
      intro i hi
      simp only [padOnes] at hi ⊢
      rw [List.getElem_append]
      split
      · rw [List.getElem_replicate]; omega
      · exact hT _ (List.getElem_mem _)
    have hr0 : (((padOnes n mask.shape).zip ((padOnes n T).zip (padOnes n Q))).map fun p =>
        if p.1 = 1 then p.2.1 else 1).prod ≠ 0 := by
      apply List.prod_ne_zero
      rw [List.mem_map]
      rintro ⟨q, hq1, hq2⟩
      have hmem : q.2.1 ∈ padOnes n T := (List.of_mem_zip (List.of_mem_zip hq1).2).1
      obtain ⟨i, hi, hi2⟩ := List.getElem_of_mem hmem
      split at hq2
      · exact hq i hi (by rw [hi2, hq2])
      · omega
    rw [hr _ hr0]
    have h1' := h1
    simp only [Nat.cast_id] at h1'
    rw [h1']
    unfold sumOver
    have hsum : ∀ l : List Nat, l.sum = 0 ↔ ∀ x ∈ l, x = 0 := by
      intro l
      induction l with
      | nil => simp
      | cons x l ih => simp [ih]
    rw [hsum]
    constructor
    · intro h
      by_contra hc
      apply h
      intro x hx
      obtain ⟨i, hi, rfl⟩ := List.mem_map.1 hx
      show (if mask.at _ then 1 else 0) = 0
      rw [if_neg]
      intro hmm
      apply hc
      refine ⟨coord i, coord_valid hi, ?_⟩
      have e : copyC Q p (coord i) = copyC P p (coord i) := by
        funext k; unfold copyC; rw [hQax]
      rw [← e]; exact hmm
    · rintro ⟨τ, hτ, hmm⟩ h
      obtain ⟨i, hi, rfl⟩ := exists_index_of_valid hτ
      have h2 := h _ (List.mem_map.2 ⟨i, hi, rfl⟩)
      change (if mask.at _ then 1 else 0) = 0 at h2
      have e : copyC Q p (coord i) = copyC P p (coord i) := by
        funext k; unfold copyC; rw [hQax]
      rw [e, if_pos hmm] at h2
      omega

/-- The degenerate call `tile(X, ())` of a node without plates and variable axes: computing the message
raises `TypeError` (`functools.reduce` of nothing). -/
theorem C13_empty_tiles_counterexample {α : Type} [CommSemiring α] (x : α) :
    tileMessage [] [] [] 0 (⟨[], fun _ => x⟩ : Arr α) = .error .typeError := rfl

/-- Plates `(2,)` tiled by `(3, 2)` with one variable axis of length 2. -/
example : (match tileMessage [3, 2] [1, 2] [2] 2 (⟨[4, 2], fun c => c 0 + 10 * c 1⟩ : Arr Nat) with
    | .ok y => (y.shape, (indices [2, 2]).map fun i => y.get (coord i))
    | .error _ => ([], [])) = ([2, 2], [3 * (0 + 20), 3 * (1 + 21), 3 * (10 + 30), 3 * (11 + 31)]) := by
  decide +kernel

end Verif
