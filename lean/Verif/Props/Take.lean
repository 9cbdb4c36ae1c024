import Verif.Lemmas.SumOver
import Verif.Model.Take
import Verif.Props.Shape

/-!
# C11: the `Take` node

The parent's full shape is `S₁ ++ [L] ++ S₂`, the axis of length `L` is taken along, and the child's
full shape is `S₁ ++ ind.shape ++ S₂`.  An element of the child has coordinates `d` on `S₂`, `j` on
`ind.shape` and `e` on `S₁`.  `Names L i t` says that the index `i` names the position `t` of an axis
of length `L` (negative numbers count from the end).
-/

namespace Verif
open Spec

theorem axisLen_splice (X J : List Nat) (q a : Nat) (ha : a ≤ X.length) (k : Nat) :
    axisLen (X.take (X.length - q) ++ J ++ X.drop (X.length - a)) k =
      if k < a then axisLen X k
      else if k < a + J.length then axisLen J (k - a)
      else axisLen X (k - a - J.length + q) := by
  have hl : (X.drop (X.length - a)).length = a := by simp; omega
  rw [axisLen_append, hl]
  split
  · unfold axisLen
    rw [List.reverse_drop, List.getElem?_take, if_pos (by omega)]
  · rw [axisLen_append]
    by_cases h : k < a + J.length
    · rw [if_pos (by omega), if_pos h]
    · rw [if_neg (by omega), if_neg h]
      exact axisLen_getPlates q X _

theorem indicesOk_iff (L : Nat) (ind : Arr Int) :
    indicesOk L ind = true ↔
      ∀ j, ValidIn ind.shape j → -(L : Int) ≤ ind.get j ∧ ind.get j < L := by
  unfold indicesOk
  rw [List.all_eq_true]
  constructor
  · intro h j hj
    obtain ⟨i, hi, rfl⟩ := exists_index_of_valid hj
    simpa using h i hi
  · intro h i hi
    simpa using h (coord i) (coord_valid hi)

theorem normIndex_names {L : Nat} {i : Int} (h : -(L : Int) ≤ i ∧ i < L) (t : Nat) (ht : t < L) :
    normIndex L i = t ↔ Names L i t := by
  unfold normIndex Names
  split <;> omega

theorem normIndex_lt {L : Nat} {i : Int} (h : -(L : Int) ≤ i ∧ i < L) : normIndex L i < L := by
  unfold normIndex
  split <;> omega

section
variable {α : Type} [CommSemiring α] (S₁ S₂ : List Nat) (L : Nat) (ind : Arr Int)

/-- **C11** The moments of `Take`: the element `(d, j, e)` of the child is the element `(d, t, e)` of the
parent, where `t` is the position named by `ind[j]`. -/
theorem C11_moments (u : Arr α) (hu : BroadcastsTo u.shape (S₁ ++ [L] ++ S₂))
    (hind : ∀ j, ValidIn ind.shape j → -(L : Int) ≤ ind.get j ∧ ind.get j < L) :
    ∃ v, takeMoments u ind S₂.length L = .ok v ∧ BroadcastsTo v.shape (S₁ ++ ind.shape ++ S₂) ∧
      ∀ d j e t, ValidIn S₂ d → ValidIn ind.shape j → ValidIn S₁ e → t < L → Names L (ind.get j) t →
        v.at (joinC S₂.length d (joinC ind.shape.length j e)) =
          u.at (joinC S₂.length d (joinC 1 (fun _ => t) e)) := by
  set a := S₂.length with ha
  set N := ind.shape.length with hN
  have hbl : BroadcastsTo (L :: List.replicate a 1) (S₁ ++ [L] ++ S₂) := by
    refine ⟨by simp; omega, fun k => ?_⟩
    rw [axisLen_cons, List.length_replicate]
    split
    · right
      rw [axisLen_append, if_neg (by omega), axisLen_append, if_pos (by simp; omega)]
      subst k
      rw [← ha, Nat.sub_self]
      simp [axisLen]
    · left
      unfold axisLen
      rw [List.reverse_replicate, List.getElem?_replicate]
      split <;> rfl
  obtain ⟨B, hB, hBb⟩ := isBroadcast_of_common hu hbl
  let x : Arr α := { shape := B, get := fun c => u.at c * (Arr.mk (L :: List.replicate a 1) fun _ => 1).at c }
  have hx : npMul u { shape := L :: List.replicate a 1, get := fun _ => 1 } = .ok x := by
    unfold npMul
    rw [(broadcastedShape_ok _ _).2 hB]
    rfl
  have hBa : axisLen B a = L := by
    have h1 := hB.fits a (L :: List.replicate a 1) (by simp)
    rw [axisLen_cons, List.length_replicate, if_pos rfl] at h1
    have h2 := hBb.2 a
    rw [axisLen_append, if_neg (by omega), axisLen_append, if_pos (by simp; omega)] at h2
    have h3 : axisLen [L] (a - S₂.length) = L := by
      rw [← ha, Nat.sub_self]; simp [axisLen]
    rw [h3] at h2
    omega
  have hBl : a < B.length := by
    have := hB.rank_ge (L :: List.replicate a 1) (by simp)
    simp at this
    omega
  let v : Arr α :=
    { shape := B.take (B.length - (a + 1)) ++ ind.shape ++ B.drop (B.length - a)
      get := fun c => x.get fun k =>
        if k < a then c k
        else if k = a then normIndex (axisLen B a) (ind.get fun l => if l < N then c (l + a) else 0)
        else c (k - 1 + N) }
  have hv : npTake x ind a = .ok v := by
    unfold npTake
    rw [if_neg (by simpa using hBl), if_neg]
    rw [not_not]
    show indicesOk (axisLen B a) ind = true
    rw [hBa, indicesOk_iff]
    exact hind
  have hvax : ∀ k, axisLen v.shape k = if k < a then axisLen B k
      else if k < a + N then axisLen ind.shape (k - a) else axisLen B (k - a - N + (a + 1)) :=
    axisLen_splice B ind.shape (a + 1) a (by omega)
  refine ⟨v, ?_, ⟨?_, fun k => ?_⟩, ?_⟩
  · unfold takeMoments
    rw [hx]
    exact hv
  · have h1 := hBb.1
    show (B.take (B.length - (a + 1)) ++ ind.shape ++ B.drop (B.length - a)).length ≤ _
    simp only [List.length_append, List.length_take, List.length_drop, List.length_singleton] at h1 ⊢
    omega
  · rw [hvax, axisLen_append, ← ha]
    by_cases h1 : k < a
    · rw [if_pos h1, if_pos h1]
      have := hBb.2 k
      rwa [axisLen_append, if_pos (by omega)] at this
    · rw [if_neg h1, if_neg h1, axisLen_append, ← hN]
      by_cases h2 : k < a + N
      · rw [if_pos h2, if_pos (by omega)]
        exact .inr rfl
      · rw [if_neg h2, if_neg (by omega)]
        have := hBb.2 (k - a - N + (a + 1))
        rw [axisLen_append, if_neg (by omega), axisLen_append, if_neg (by simp; omega)] at this
        have e : k - a - N + (a + 1) - S₂.length - [L].length = k - a - N := by simp; omega
        rwa [e] at this
  · intro d j e t hd hj he ht hname
    set c := joinC a d (joinC N j e) with hc
    have hxat : ∀ c, x.get c = u.at c := by
      intro c
      show u.at c * 1 = _
      rw [mul_one]
    show x.get _ = _
    rw [hxat]
    apply u.at_congr
    intro k hk
    -- the broadcast has the length of `u` there
    have hBk : axisLen B k ≠ 1 := by
      rcases hB.fits k u.shape (by simp) with h | h
      · exact absurd h hk
      · omega
    show (if k < a then restrict v.shape c k
        else if k = a then normIndex (axisLen B a)
          (ind.get fun l => if l < N then restrict v.shape c (l + a) else 0)
        else restrict v.shape c (k - 1 + N)) = _
    by_cases h1 : k < a
    · rw [if_pos h1]
      unfold restrict
      rw [hvax, if_pos h1, if_neg hBk, hc]
      unfold joinC
      rw [if_pos h1, if_pos h1]
    · rw [if_neg h1]
      by_cases h2 : k = a
      · rw [if_pos h2]
        have hjj : (fun l => if l < N then restrict v.shape c (l + a) else 0) = j := by
          funext l
          by_cases hl : l < N
          · rw [if_pos hl]
            unfold restrict
            rw [hvax, if_neg (show ¬ l + a < a by omega), if_pos (show l + a < a + N by omega),
              Nat.add_sub_cancel]
            have hcl : c (l + a) = j l := by
              rw [hc]
              unfold joinC
              rw [if_neg (by omega), Nat.add_sub_cancel, if_pos hl]
            rw [hcl]
            have := hj l
            split <;> omega
          · rw [if_neg hl]
            have := hj l
            rw [axisLen_of_ge (by omega)] at this
            omega
        rw [hjj, hBa, (normIndex_names (hind j hj) t ht).2 hname, h2]
        unfold joinC
        rw [if_neg (by omega), if_pos (by omega)]
      · rw [if_neg h2]
        unfold restrict
        rw [hvax, if_neg (show ¬ k - 1 + N < a by omega), if_neg (show ¬ k - 1 + N < a + N by omega),
          show k - 1 + N - a - N + (a + 1) = k by omega, if_neg hBk, hc]
        unfold joinC
        rw [if_neg (by omega), if_neg (by omega), if_neg h1, if_neg (by omega)]
        congr 1
        omega

/-- **C11** The message of `Take` to its parent at `(d, t, e)` is the sum of the child messages at all
`(d, j, e)` whose index names `t`: repeated indices add up, unselected elements get zero. -/
theorem C11_message (m : Arr α) (hm : BroadcastsTo m.shape (S₁ ++ ind.shape ++ S₂))
    (hind : ∀ j, ValidIn ind.shape j → -(L : Int) ≤ ind.get j ∧ ind.get j < L) :
    ∃ y, takeMessage m ind S₂.length L = .ok y ∧ BroadcastsTo y.shape (S₁ ++ [L] ++ S₂) ∧
      ∀ d t e, ValidIn S₂ d → t < L → ValidIn S₁ e →
        y.at (joinC S₂.length d (joinC 1 (fun _ => t) e)) = sumOver ind.shape fun j =>
          if Names L (ind.get j) t then m.at (joinC S₂.length d (joinC ind.shape.length j e)) else 0 := by
  set a := S₂.length with ha
  set N := ind.shape.length with hN
  -- lengths of `m` after `atleast_nd`
  set m' := atleastNd m a with hm'
  have hm'ax : ∀ k, axisLen m'.shape k = axisLen m.shape k := by
    intro k
    show axisLen (List.replicate (a - m.shape.length) 1 ++ m.shape) k = _
    rw [axisLen_append]
    split
    · rfl
    · rw [axisLen_of_ge (s := m.shape) (by omega)]
      unfold axisLen
      rw [List.reverse_replicate, List.getElem?_replicate]
      split <;> rfl
  have hm'l : m'.shape.length = max a m.shape.length := by
    show (List.replicate (a - m.shape.length) 1 ++ m.shape).length = _
    simp
    omega
  have hm'at : ∀ c, m'.at c = m.at c := by
    intro c
    show m.get (restrict m'.shape c) = m.get (restrict m.shape c)
    congr 1
    funext k
    unfold restrict
    rw [hm'ax]
  let shapeX := if a + N = 0 then m'.shape ++ [L]
    else if a = 0 then m'.shape.take (m'.shape.length - (a + N)) ++ [L]
    else m'.shape.take (m'.shape.length - (a + N)) ++ [L] ++ m'.shape.drop (m'.shape.length - a)
  have hshape : shapeX = m'.shape.take (m'.shape.length - (a + N)) ++ [L] ++
      m'.shape.drop (m'.shape.length - a) := by
    show (if a + N = 0 then m'.shape ++ [L]
      else if a = 0 then m'.shape.take (m'.shape.length - (a + N)) ++ [L]
      else m'.shape.take (m'.shape.length - (a + N)) ++ [L] ++ m'.shape.drop (m'.shape.length - a)) = _
    split
    · rename_i h
      have h1 : a = 0 := by omega
      rw [h, h1]
      simp
    · split
      · rename_i h
        rw [h]
        simp
      · rfl
  have hXax : ∀ k, axisLen shapeX k = if k < a then axisLen m.shape k
      else if k < a + 1 then L else axisLen m.shape (k - a - 1 + (a + N)) := by
    intro k
    rw [hshape, axisLen_splice _ _ _ _ (by omega)]
    rw [hm'ax, hm'ax]
    split
    · rfl
    · simp only [List.length_singleton]
      split
      · rw [show k - a = 0 by omega]; simp [axisLen]
      · rfl
  have hXl : shapeX.length = m'.shape.length - (a + N) + 1 + a := by
    rw [hshape]
    simp
    omega
  have hXa : axisLen shapeX a = L := by
    rw [hXax, if_neg (by omega), if_pos (by omega)]
  -- the shape to which `y` is broadcast
  have hsub : BroadcastsTo m'.shape (shapeX.take (shapeX.length - (a + 1)) ++ ind.shape ++
      shapeX.drop (shapeX.length - a)) := by
    refine ⟨?_, fun k => ?_⟩
    · have := hm.1
      simp only [List.length_append, List.length_take, List.length_drop] at this ⊢
      omega
    · rw [axisLen_splice _ _ _ _ (by omega), hm'ax]
      by_cases h1 : k < a
      · rw [if_pos h1, hXax, if_pos h1]
        exact .inr rfl
      · rw [if_neg h1]
        by_cases h2 : k < a + ind.shape.length
        · rw [if_pos h2]
          have := hm.2 k
          rwa [axisLen_append, if_neg (by omega), axisLen_append, if_pos (by omega)] at this
        · rw [if_neg h2, hXax, if_neg (by omega), if_neg (by omega)]
          right
          congr 1
          omega
  let y : Arr α :=
    { shape := shapeX
      get := fun c => 0 + ((indices ind.shape).map fun j =>
        if normIndex (axisLen shapeX a) (ind.get (coord j)) = c a then
          m'.at fun k => if k < a then c k else if k < a + N then coord j (k - a) else c (k + 1 - N)
        else 0).sum }
  have hy : takeMessage m ind a L = .ok y := by
    show putAdd ({ shape := shapeX, get := fun _ => 0 } : Arr α) ind m' a = .ok y
    unfold putAdd
    have e1 : a < shapeX.length := by omega
    have e2 : indicesOk (axisLen shapeX a) ind = true := by rw [hXa, indicesOk_iff]; exact hind
    simp only [e1, e2, not_true, if_false, (isShapeSubset_true _ _).2 hsub]
    rfl
  refine ⟨y, hy, ⟨?_, fun k => ?_⟩, fun d t e hd ht he => ?_⟩
  · have := hm.1
    show shapeX.length ≤ _
    simp only [List.length_append, List.length_singleton] at this ⊢
    omega
  · rw [show y.shape = shapeX from rfl, hXax, axisLen_append, ← ha]
    by_cases h1 : k < a
    · rw [if_pos h1, if_pos h1]
      have := hm.2 k
      rwa [axisLen_append, if_pos (by omega)] at this
    · rw [if_neg h1, if_neg h1, axisLen_append]
      simp only [List.length_singleton]
      by_cases h2 : k < a + 1
      · rw [if_pos h2, if_pos (by omega), show k - a = 0 by omega]
        right; simp [axisLen]
      · rw [if_neg h2, if_neg (by omega)]
        have := hm.2 (k - a - 1 + (a + N))
        rw [axisLen_append, if_neg (by omega), axisLen_append, if_neg (by omega)] at this
        rwa [show k - a - 1 + (a + N) - S₂.length - ind.shape.length = k - a - 1 by omega] at this
  · show (0 : α) + _ = _
    rw [zero_add]
    unfold sumOver
    congr 1
    apply List.map_congr_left
    intro i hi
    have hiv := coord_valid hi
    set p := joinC a d (joinC 1 (fun _ => t) e) with hp
    have hpa : restrict shapeX p a = t := by
      unfold restrict
      rw [hXa]
      have : p a = t := by
        rw [hp]; unfold joinC
        rw [if_neg (by omega), if_pos (by omega)]
      rw [this]
      split <;> omega
    show (if normIndex (axisLen shapeX a) (ind.get (coord i)) = restrict shapeX p a then
      m'.at fun k => if k < a then restrict shapeX p k else if k < a + N then coord i (k - a)
        else restrict shapeX p (k + 1 - N) else 0) =
      if Names L (ind.get (coord i)) t then m.at (joinC a d (joinC N (coord i) e)) else 0
    rw [hpa, hXa]
    have hiff := normIndex_names (hind _ hiv) t ht
    by_cases hn : Names L (ind.get (coord i)) t
    · rw [if_pos (hiff.2 hn), if_pos hn, hm'at]
      apply m.at_congr
      intro k hk
      by_cases h1 : k < a
      · rw [if_pos h1]
        unfold restrict
        rw [hXax, if_pos h1, if_neg hk, hp]
        unfold joinC
        rw [if_pos h1, if_pos h1]
      · rw [if_neg h1]
        by_cases h2 : k < a + N
        · rw [if_pos h2]
          unfold joinC
          rw [if_neg h1, if_pos (by omega)]
        · rw [if_neg h2]
          unfold restrict
          rw [hXax, if_neg (show ¬ k + 1 - N < a by omega), if_neg (show ¬ k + 1 - N < a + 1 by omega),
            show k + 1 - N - a - 1 + (a + N) = k by omega,
            if_neg hk, hp]
          unfold joinC
          rw [if_neg (by omega), if_neg (by omega), if_neg h1, if_neg (by omega)]
          congr 1
          omega
    · rw [if_neg (fun h => hn (hiff.1 h)), if_neg hn]

/-- **C11** `Take` is adjoint: the child message times the child moments, added up over all elements of
the child, equals the message to the parent times the parent's moments. -/
theorem C11_adjoint (u m : Arr α) (hu : BroadcastsTo u.shape (S₁ ++ [L] ++ S₂))
    (hm : BroadcastsTo m.shape (S₁ ++ ind.shape ++ S₂))
    (hind : ∀ j, ValidIn ind.shape j → -(L : Int) ≤ ind.get j ∧ ind.get j < L) :
    ∃ v y, takeMoments u ind S₂.length L = .ok v ∧ takeMessage m ind S₂.length L = .ok y ∧
      sumOver (S₁ ++ ind.shape ++ S₂) (fun c => m.at c * v.at c) =
        sumOver (S₁ ++ [L] ++ S₂) fun c => y.at c * u.at c := by
  obtain ⟨v, hv, _, hvat⟩ := C11_moments S₁ S₂ L ind u hu hind
  obtain ⟨y, hy, _, hyat⟩ := C11_message S₁ S₂ L ind m hm hind
  refine ⟨v, y, hv, hy, ?_⟩
  rw [sumOver_append, sumOver_append, sumOver_append, sumOver_append]
  apply sumOver_congr
  intro ie hie
  have he := coord_valid hie
  set e := coord ie
  simp only [List.length_singleton]
  -- right side
  have hR : ∀ it ∈ indices [L], sumOver S₂ (fun d =>
      y.at (joinC S₂.length d (joinC 1 (coord it) e)) * u.at (joinC S₂.length d (joinC 1 (coord it) e))) =
      sumOver ind.shape fun j => if Names L (ind.get j) (coord it 0) then
        sumOver S₂ (fun d => m.at (joinC S₂.length d (joinC ind.shape.length j e)) *
          u.at (joinC S₂.length d (joinC 1 (coord it) e))) else 0 := by
    intro it hit
    have ht : coord it 0 < L := by
      have := coord_valid hit 0
      simpa [axisLen] using this
    have hj1 : ∀ x : Nat → Nat, joinC 1 x e = joinC 1 (fun _ => x 0) e := by
      intro x
      funext k
      unfold joinC
      split
      · rw [show k = 0 by omega]
      · rfl
    have h1 : ∀ id ∈ indices S₂, y.at (joinC S₂.length (coord id) (joinC 1 (coord it) e)) *
        u.at (joinC S₂.length (coord id) (joinC 1 (coord it) e)) =
        sumOver ind.shape fun j => (if Names L (ind.get j) (coord it 0) then
          m.at (joinC S₂.length (coord id) (joinC ind.shape.length j e)) *
          u.at (joinC S₂.length (coord id) (joinC 1 (coord it) e)) else 0) := by
      intro id hid
      rw [hj1, hyat _ _ _ (coord_valid hid) ht he, ← sumOver_mul_right]
      apply sumOver_congr
      intro j _
      split
      · rfl
      · rw [zero_mul]
    rw [sumOver_congr S₂ (g := fun d => sumOver ind.shape fun j => (if Names L (ind.get j) (coord it 0) then
          m.at (joinC S₂.length d (joinC ind.shape.length j e)) *
          u.at (joinC S₂.length d (joinC 1 (coord it) e)) else 0)) h1, sumOver_comm]
    apply sumOver_congr
    intro j _
    split
    · rfl
    · rw [sumOver_zero]
  rw [sumOver_congr [L] (g := fun t => sumOver ind.shape fun j => if Names L (ind.get j) (t 0) then
        sumOver S₂ (fun d => m.at (joinC S₂.length d (joinC ind.shape.length j e)) *
          u.at (joinC S₂.length d (joinC 1 t e))) else 0) hR]
  conv_rhs => rw [sumOver_comm]
  apply sumOver_congr
  intro ij hij
  have hj := coord_valid hij
  set j := coord ij
  -- the selected position
  have hb := hind j hj
  have ht := normIndex_lt hb
  rw [sumOver_singleton, Finset.sum_eq_single (normIndex L (ind.get j))]
  · simp only [Function.update_self]
    rw [if_pos ((normIndex_names hb _ ht).1 rfl)]
    apply sumOver_congr
    intro id hid
    rw [hvat _ j e _ (coord_valid hid) hj he ht ((normIndex_names hb _ ht).1 rfl)]
    congr 2
    funext k
    unfold joinC
    split
    · rfl
    · split
      · rw [show k - S₂.length = 0 by omega]; simp
      · rfl
  · intro t ht' hne
    simp only [Function.update_self]
    rw [if_neg]
    intro h
    exact hne ((normIndex_names hb t (by simpa using ht')).2 h).symm
  · intro h
    exact absurd (Finset.mem_range.2 ht) h

end

/-- **C11** The mask sent to the parent: a parent element is active iff an active element of the child took
it. -/
theorem C11_mask (S₁ S₂ : List Nat) (L : Nat) (ind : Arr Int) (mask : Arr Bool)
    (hm : BroadcastsTo mask.shape (S₁ ++ ind.shape ++ S₂))
    (hind : ∀ j, ValidIn ind.shape j → -(L : Int) ≤ ind.get j ∧ ind.get j < L) :
    ∃ w, takeWeights mask ind S₂.length L = .ok w ∧ BroadcastsTo w.shape (S₁ ++ [L] ++ S₂) ∧
      ∀ d t e, ValidIn S₂ d → t < L → ValidIn S₁ e →
        (w.at (joinC S₂.length d (joinC 1 (fun _ => t) e)) = true ↔
          ∃ j, ValidIn ind.shape j ∧ Names L (ind.get j) t ∧
            mask.at (joinC S₂.length d (joinC ind.shape.length j e)) = true) := by
  obtain ⟨y, hy, hyb, hyat⟩ := C11_message S₁ S₂ L ind
    ({ shape := mask.shape, get := fun c => if mask.get c then 1 else 0 } : Arr Nat) hm hind
  refine ⟨{ shape := y.shape, get := fun c => y.get c != 0 }, ?_, hyb, fun d t e hd ht he => ?_⟩
  · unfold takeWeights
    rw [show putSimple _ ind S₂.length L = .ok y from hy]
    rfl
  · show (y.at _ != 0) = true ↔ _
    rw [hyat d t e hd ht he, bne_iff_ne, ne_eq]
    unfold sumOver
    have hsum : ∀ l : List Nat, l.sum = 0 ↔ ∀ x ∈ l, x = 0 := by
      intro l
      induction l with
      | nil => simp
      | cons x l ih => simp [ih]
    rw [hsum]
    constructor
    · intro h
      by_contra hc
      apply h
      intro x hx
      obtain ⟨i, hi, rfl⟩ := List.mem_map.1 hx
      beta_reduce
      split
      · rename_i hn
        show (if mask.at _ then 1 else 0) = 0
        rw [if_neg]
        intro hmm
        exact hc ⟨coord i, coord_valid hi, hn, hmm⟩
      · rfl
    · rintro ⟨j, hj, hn, hmm⟩ h
      obtain ⟨i, hi, rfl⟩ := exists_index_of_valid hj
      have := h _ (List.mem_map.2 ⟨i, hi, rfl⟩)
      beta_reduce at this
      rw [if_pos hn] at this
      change (if mask.at _ then 1 else 0) = 0 at this
      rw [if_pos hmm] at this
      omega

/-- **C11** The plates: the axis is replaced by those of the index array, and going back gives the plates
of the parent. -/
theorem C11_plates (P₁ P₂ : List Nat) (L : Nat) (ind : Arr Int) :
    takePlatesFromParent ind P₂.length (P₁ ++ [L] ++ P₂) = P₁ ++ ind.shape ++ P₂ ∧
    takePlatesToParent ind P₂.length L (P₁ ++ ind.shape ++ P₂) = P₁ ++ [L] ++ P₂ := by
  constructor
  · unfold takePlatesFromParent
    have h1 : (P₁ ++ [L] ++ P₂).take ((P₁ ++ [L] ++ P₂).length - (P₂.length + 1)) = P₁ := by
      rw [List.append_assoc, List.take_append_of_le_length (by simp)]
      simp
    have h2 : (P₁ ++ [L] ++ P₂).drop ((P₁ ++ [L] ++ P₂).length - P₂.length) = P₂ := by
      rw [List.drop_append_of_le_length (by simp; omega), List.drop_of_length_le (by simp; omega)]
      simp
    simp only [h1, h2]
    split
    · rfl
    · rename_i h
      have : P₂ = [] := List.eq_nil_of_length_eq_zero (by omega)
      rw [this, List.append_nil]
  · unfold takePlatesToParent
    have h1 : (P₁ ++ ind.shape ++ P₂).take ((P₁ ++ ind.shape ++ P₂).length -
        (P₂.length + ind.shape.length)) = P₁ := by
      rw [List.append_assoc, List.take_append_of_le_length (by simp; omega), List.take_of_length_le]
      simp
      omega
    have h2 : (P₁ ++ ind.shape ++ P₂).drop ((P₁ ++ ind.shape ++ P₂).length - P₂.length) = P₂ := by
      rw [List.drop_append_of_le_length (by simp; omega), List.drop_of_length_le (by simp; omega)]
      simp
    simp only [h1, h2]
    split
    · rename_i h
      have a1 : P₂ = [] := List.eq_nil_of_length_eq_zero (by omega)
      have a2 : ind.shape = [] := List.eq_nil_of_length_eq_zero (by omega)
      simp [a1, a2]
    · split
      · rename_i h
        have a1 : P₂ = [] := List.eq_nil_of_length_eq_zero h
        simp [a1]
      · rfl

/-- **C11** Construction raises `ValueError` for an index out of bounds. -/
theorem C11_rejects (ind : Arr Int) (a : Nat) (plates : List Nat) (ha : a < plates.length) :
    takeInit ind a plates = .ok () ↔
      ∀ j, ValidIn ind.shape j → -(axisLen plates a : Int) ≤ ind.get j ∧ ind.get j < axisLen plates a := by
  unfold takeInit
  rw [← indicesOk_iff]
  simp only [ha, not_true, if_false]
  by_cases h : indicesOk (axisLen plates a) ind = true
  · simp only [h]
    constructor
    · intro _; trivial
    · intro _; rfl
  · simp only [h]
    constructor
    · intro hh; exact absurd hh (by simp [throw, throwThe, MonadExceptOf.throw])
    · intro hh; exact absurd hh (by simp)

/-- Plates `(2, 3)`, index array `[[1, -1], [1, 0]]` along the last plate axis, one variable axis. -/
example : BroadcastsTo [2, 3, 2] ([2] ++ [3] ++ [2]) ∧
    BroadcastsTo [2, 1, 2] ([2] ++ [2, 2] ++ [2]) ∧
    (match takeMessage (⟨[2, 1, 2], fun c => 10 * c 2 + c 0 + 1⟩ : Arr Nat)
        ⟨[2, 2], fun c => if c 1 = 0 then (if c 0 = 0 then 1 else -1) else (if c 0 = 0 then 1 else 0)⟩ 1 3 with
      | .ok y => (y.shape, (indices [3, 2]).map fun i => y.get (coord i))
      | .error _ => ([], [])) = ([3, 2], [11, 12, 12, 14, 1, 2]) := by
  refine ⟨(isShapeSubset_true _ _).1 (by decide), (isShapeSubset_true _ _).1 (by decide), by decide +kernel⟩

end Verif
