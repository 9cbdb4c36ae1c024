import Verif.Lemmas.SumMultiply

/-! # Helper lemmas: `sum_multiply_to_plates` -/

namespace Verif
open Spec Function

theorem axisLen_getPlates (n : Nat) (s : List Nat) (j : Nat) :
    axisLen (getPlates n s) j = axisLen s (j + n) := by
  unfold axisLen getPlates
  rw [List.reverse_take]
  rw [List.getElem?_drop]
  by_cases h : n ≤ s.length
  · congr 2; omega
  · rw [List.getElem?_eq_none (by simp; omega), List.getElem?_eq_none (by simp; omega)]

theorem length_getPlates (n : Nat) (s : List Nat) : (getPlates n s).length = s.length - n := by
  simp [getPlates]

theorem isBroadcast_getPlates {α : Type _} {args : List (Arr α)} {B : List Nat} (n : Nat)
    (hB : IsBroadcast (args.map (·.shape)) B) :
    IsBroadcast (args.map fun X => getPlates n X.shape) (getPlates n B) := by
  refine ⟨?_, ?_, ?_, ?_⟩
  · intro s hs
    obtain ⟨X, hX, rfl⟩ := List.mem_map.1 hs
    have := hB.rank_ge _ (List.mem_map_of_mem hX)
    simp only [length_getPlates]; omega
  · rcases hB.rank_le with h | ⟨s, hs, h⟩
    · left; rw [length_getPlates]; omega
    · right
      obtain ⟨X, hX, rfl⟩ := List.mem_map.1 hs
      exact ⟨_, List.mem_map_of_mem hX, by simp only [length_getPlates]; omega⟩
  · intro k s hs
    obtain ⟨X, hX, rfl⟩ := List.mem_map.1 hs
    simp only [axisLen_getPlates]
    exact hB.fits _ _ (List.mem_map_of_mem hX)
  · intro k
    simp only [axisLen_getPlates]
    rcases hB.attained (k + n) with h | ⟨s, hs, h⟩
    · exact .inl h
    · obtain ⟨X, hX, rfl⟩ := List.mem_map.1 hs
      right
      exact ⟨_, List.mem_map_of_mem hX, by rw [axisLen_getPlates]; exact h⟩

/-- Product of collapsed arrays = collapse of the product, if each collapsed axis is used by one
array only. -/
theorem prod_collapse {α : Type _} [CommSemiring α] (l : List (Arr α × List (Nat × Nat)))
    (h : l.Pairwise fun p q => (∀ a ∈ p.2, axisLen q.1.shape a.1 = 1) ∧
      (∀ a ∈ q.2, axisLen p.1.shape a.1 = 1)) (c : Nat → Nat) :
    (l.map fun p => sumAxes p.2 p.1.at c).prod
      = sumAxes (l.flatMap (·.2)) (prodAt (l.map (·.1))) c := by
  induction l generalizing c with
  | nil => rfl
  | cons p l ih =>
    obtain ⟨X, A⟩ := p
    rw [List.pairwise_cons] at h
    simp only [List.map_cons, List.prod_cons, List.flatMap_cons]
    rw [ih h.2, sumAxes_append]
    rw [← sumAxes_mul_right A X.at (fun c => sumAxes (l.flatMap (·.2)) (prodAt (l.map (·.1))) c) c]
    · apply sumAxes_congr
      intro c' _
      rw [← sumAxes_mul_left (l.flatMap (·.2)) (prodAt (l.map (·.1))) X.at c']
      · rfl
      · intro a ha c t
        simp only [List.mem_flatMap] at ha
        obtain ⟨q, hq, ha⟩ := ha
        exact X.at_update ((h.1 q hq).2 a ha)
    · intro a ha c t
      apply sumAxes_indep
      intro c t
      unfold prodAt
      congr 1
      apply List.map_congr_left
      intro Y hY
      obtain ⟨q, hq, rfl⟩ := List.mem_map.1 hY
      exact q.1.at_update ((h.1 q hq).1 a ha)

/-- The result of one collapse step. -/
theorem collapseOne_ok {α : Type} [AddCommMonoid α] {tgt W : List Nat} {n : Nat}
    {PA : List (List Nat)} {ind : Nat} {X : Arr α}
    (hW : IsBroadcast (tgt :: (PA.take ind ++ PA.drop (ind + 1))) W)
    (hc : CollapsesTo (getPlates n X.shape) W) :
    ∃ Y, collapseOne tgt n PA ind X = .ok Y ∧ Y.shape.length = X.shape.length ∧
      (∀ i, axisLen Y.shape i =
        if n ≤ i ∧ axisLen X.shape i ≠ 1 ∧ axisLen W (i - n) = 1 then 1 else axisLen X.shape i) ∧
      ∀ c, Y.at c = sumAxes (((descSel (getPlates n X.shape).length
        (collapsePred (getPlates n X.shape) W))).map fun j => (j + n, axisLen X.shape (j + n)))
          X.at c := by
  set js := descSel (getPlates n X.shape).length (collapsePred (getPlates n X.shape) W) with hjs
  have hmem : ∀ j, j ∈ js ↔ axisLen X.shape (j + n) ≠ 1 ∧ axisLen W j = 1 := by
    intro j
    rw [hjs, mem_descSel, collapsePred]
    simp only [decide_eq_true_eq, axisLen_getPlates]
    constructor
    · exact fun h => h.2
    · intro h
      refine ⟨?_, h⟩
      by_contra hcon
      rw [length_getPlates] at hcon
      exact h.1 (axisLen_of_ge (by omega))
  have hsh : ∀ i, (n ≤ i ∧ axisLen X.shape i ≠ 1 ∧ axisLen W (i - n) = 1) ↔
      ∃ j ∈ js, j + n = i := by
    intro i
    constructor
    · rintro ⟨h1, h2, h3⟩
      exact ⟨i - n, (hmem _).2 ⟨by rwa [Nat.sub_add_cancel h1], h3⟩, by omega⟩
    · rintro ⟨j, hj, rfl⟩
      have := (hmem j).1 hj
      exact ⟨by omega, this.1, by simpa using this.2⟩
  unfold collapseOne
  simp only [(broadcastedShape_ok _ _).2 hW, axesToCollapse_ok hc, bind, Except.bind]
  rw [← hjs]
  by_cases hnil : js = []
  · refine ⟨X, by simp [hnil, pure, Except.pure], rfl, ?_, ?_⟩
    · intro i
      rw [if_neg]
      rw [hsh]
      simp [hnil]
    · intro c; simp [hnil, sumAxes]
  · rw [if_pos (by simpa using hnil)]
    have e : (js.map (· + 1)).map (· + n) = (js.map (· + n)).map (· + 1) := by
      simp only [List.map_map]
      congr 1
      funext j
      simp; omega
    rw [e]
    obtain ⟨Y, h1, h2, h3⟩ := npSumKeep_ok X (js.map (· + n))
      (by
        apply List.Nodup.map
        · intro a b h; simpa using h
        · rw [hjs]; exact nodup_descSel _ _)
      (by
        intro i hi
        obtain ⟨j, hj, rfl⟩ := List.mem_map.1 hi
        by_contra hcon
        exact ((hmem j).1 hj).1 (axisLen_of_ge (by omega)))
    refine ⟨Y, h1, by rw [h2, length_collapseShape], ?_, ?_⟩
    · intro i
      by_cases hi : i < X.shape.length
      · rw [h2, axisLen_collapseShape _ _ _ hi]
        congr 1
        rw [eq_iff_iff, hsh]
        simp only [List.mem_map, exists_exists_and_eq_and, Nat.add_right_cancel_iff]
      · rw [h2, axisLen_collapseShape_ge _ _ _ (by omega), axisLen_of_ge (by omega)]
        simp
    · intro c
      rw [h3, List.map_map]
      rfl

theorem reduceMul_ok {α : Type} [CommSemiring α] {args : List (Arr α)} {B : List Nat}
    (hne : args ≠ []) (hB : IsBroadcast (args.map (·.shape)) B) :
    ∃ y, reduceMul args = .ok y ∧ y.shape = B ∧ ∀ c, y.at c = prodAt args c := by
  cases args with
  | nil => exact absurd rfl hne
  | cons X Xs =>
    simp only [reduceMul]
    clear hne
    induction Xs generalizing X with
    | nil =>
      refine ⟨X, rfl, ?_, ?_⟩
      · apply isBroadcast_unique (shapes := [X.shape]) _ (by simpa using hB)
        exact ⟨by simp, .inr ⟨_, by simp, rfl⟩, by simp, fun k => .inr ⟨_, by simp, rfl⟩⟩
      · intro c; simp [prodAt]
    | cons Y Ys ih =>
      have hcomp : Compatible [X.shape, Y.shape] := by
        intro k s hs t ht
        have h1 := hB.fits k s (by simp at hs; rcases hs with rfl | rfl <;> simp)
        have h2 := hB.fits k t (by simp at ht; rcases ht with rfl | rfl <;> simp)
        omega
      obtain ⟨S, hS⟩ := (exists_isBroadcast_iff _).2 hcomp
      have hmul : npMul X Y = .ok { shape := S, get := fun c => X.at c * Y.at c } := by
        unfold npMul
        rw [(broadcastedShape_ok _ _).2 hS]
        rfl
      rw [List.foldlM_cons, hmul]
      have hat : ∀ c, Arr.at ({ shape := S, get := fun c => X.at c * Y.at c } : Arr α) c
          = X.at c * Y.at c := by
        intro c
        show X.at (restrict S c) * Y.at (restrict S c) = _
        congr 1
        · apply X.at_congr
          intro k hk
          have := hS.fits k X.shape (by simp)
          unfold restrict
          rw [if_neg (by omega)]
        · apply Y.at_congr
          intro k hk
          have := hS.fits k Y.shape (by simp)
          unfold restrict
          rw [if_neg (by omega)]
      have hB' : IsBroadcast ((({ shape := S, get := fun c => X.at c * Y.at c } : Arr α) :: Ys).map
          (·.shape)) B := by
        simp only [List.map_cons]
        rw [isBroadcast_group hS]
        exact hB
      obtain ⟨y, h1, h2, h3⟩ := ih _ hB'
      refine ⟨y, h1, h2, ?_⟩
      intro c
      rw [h3]
      simp only [prodAt, List.map_cons, List.prod_cons, hat, mul_assoc]

theorem squeezeToDim_ok {α : Type} {X : Arr α} {d : Nat}
    (h : ∀ i, d ≤ i → axisLen X.shape i = 1) :
    ∃ Y, squeezeToDim X d = .ok Y ∧ Y.shape.length = min X.shape.length d ∧
      (∀ i, axisLen Y.shape i = axisLen X.shape i) ∧ (∀ c, Y.at c = X.at c) := by
  have hd : ∀ i, axisLen (X.shape.drop (X.shape.length - d)) i = axisLen X.shape i := by
    intro i
    unfold axisLen
    rw [List.reverse_drop, List.getElem?_take]
    split
    · rfl
    · rename_i hi
      by_cases hi2 : i < X.shape.length
      · have := h i (by omega)
        unfold axisLen at this
        rw [this]; rfl
      · rw [List.getElem?_eq_none (by simp; omega)]
  refine ⟨{ shape := X.shape.drop (X.shape.length - d), get := X.get }, ?_, ?_, hd, ?_⟩
  · unfold squeezeToDim npSqueezeLeading
    rw [if_pos]
    refine ⟨by omega, ?_⟩
    intro x hx
    obtain ⟨p, hp, rfl⟩ := List.getElem_of_mem hx
    rw [List.getElem_take]
    simp at hp
    rw [← axisLen_eq_getElem (by omega)]
    exact h _ (by omega)
  · simp; omega
  · intro c
    show X.get _ = X.get _
    congr 1
    funext k
    simp only [restrict, hd]

/-- A nested sum of products depends on the base coordinate only through the non-unit axes which
are not summed. -/
theorem sumAxes_prodAt_base {α : Type _} [CommSemiring α] {args : List (Arr α)} {B : List Nat}
    (hB : IsBroadcast (args.map (·.shape)) B) (L : List (Nat × Nat)) {d1 d2 : Nat → Nat}
    (h : ∀ k, axisLen B k ≠ 1 → k ∉ L.map (·.1) → d1 k = d2 k) :
    sumAxes L (prodAt args) d1 = sumAxes L (prodAt args) d2 := by
  induction L generalizing d1 d2 with
  | nil =>
    simp only [sumAxes]
    exact prodAt_congr hB (fun k hk => h k hk (by simp))
  | cons p L ih =>
    obtain ⟨j, d⟩ := p
    simp only [sumAxes]
    apply Finset.sum_congr rfl
    intro t _
    apply ih
    intro k hk hkL
    by_cases hkj : k = j
    · subst hkj; simp
    · rw [update_of_ne hkj, update_of_ne hkj]
      exact h k hk (by simpa [hkj] using hkL)

/-- `a` is one of the shapes left when the one at position `ind` is removed. -/
theorem mem_others {β : Type _} {l : List β} {ind i : Nat} (hi : i < l.length) (h : i ≠ ind) :
    l[i] ∈ l.take ind ++ l.drop (ind + 1) := by
  rw [List.mem_append]
  by_cases h1 : i < ind
  · left
    rw [List.mem_take_iff_getElem]
    exact ⟨i, by omega, rfl⟩
  · right
    rw [List.mem_drop_iff_getElem]
    exact ⟨i - (ind + 1), by omega, by congr 1; omega⟩

theorem mem_of_mem_others {β : Type _} {l : List β} {ind : Nat} {a : β}
    (h : a ∈ l.take ind ++ l.drop (ind + 1)) : ∃ i, ∃ h : i < l.length, i ≠ ind ∧ l[i] = a := by
  rw [List.mem_append] at h
  rcases h with h | h
  · rw [List.mem_take_iff_getElem] at h
    obtain ⟨i, hi, rfl⟩ := h
    exact ⟨i, by omega, by omega, rfl⟩
  · rw [List.mem_drop_iff_getElem] at h
    obtain ⟨i, hi, rfl⟩ := h
    exact ⟨_, by omega, by omega, rfl⟩

/-- The axes summed by the core of `sum_multiply_to_plates`. -/
def coreAxes (n : Nat) (B tgt : List Nat) : List (Nat × Nat) :=
  (selAxes (getPlates n B)
    (fun j => decide (axisLen tgt j = 1 ∧ axisLen (getPlates n B) j ≠ 1))).map
      fun p => (p.1 + n, p.2)

theorem mem_coreAxes {n : Nat} {B tgt : List Nat} {i d : Nat} :
    (i, d) ∈ coreAxes n B tgt ↔
      n ≤ i ∧ axisLen tgt (i - n) = 1 ∧ axisLen B i ≠ 1 ∧ d = axisLen B i := by
  unfold coreAxes selAxes
  simp only [List.mem_map, List.mem_filter, List.mem_range, decide_eq_true_eq, Prod.mk.injEq,
    axisLen_getPlates, length_getPlates, List.map_map, comp]
  constructor
  · rintro ⟨j, ⟨_, h1, h2⟩, rfl, rfl⟩
    exact ⟨by omega, by simpa using h1, h2, rfl⟩
  · rintro ⟨h1, h2, h3, rfl⟩
    refine ⟨i - n, ⟨?_, h2, by rwa [Nat.sub_add_cancel h1]⟩, by omega, by
      rw [Nat.sub_add_cancel h1]⟩
    by_contra hc
    exact h3 (axisLen_of_ge (by omega))

theorem nodup_coreAxes (n : Nat) (B tgt : List Nat) : ((coreAxes n B tgt).map (·.1)).Nodup := by
  unfold coreAxes
  rw [List.map_map]
  have : ((fun p : Nat × Nat => p.1) ∘ fun p : Nat × Nat => (p.1 + n, p.2))
      = (· + n) ∘ (fun p : Nat × Nat => p.1) := by funext p; rfl
  rw [this, ← List.map_map]
  apply List.Nodup.map
  · intro a b h; simpa using h
  · exact selAxes_nodup _ _

set_option maxHeartbeats 1000000 in
theorem sumToPlatesCore_ok {α : Type} [CommSemiring α] {args : List (Arr α)} {B tgt : List Nat}
    {n : Nat} (hne : args ≠ []) (hB : IsBroadcast (args.map (·.shape)) B)
    (hT : CollapsesTo (getPlates n B) tgt) :
    ∃ y, sumToPlatesCore args tgt n = .ok y ∧ y.shape.length = min B.length (tgt.length + n) ∧
      (∀ i, axisLen y.shape i =
        if n ≤ i ∧ axisLen tgt (i - n) = 1 then 1 else axisLen B i) ∧
      ∀ c, (∀ i, axisLen y.shape i = 1 ∨ c i < axisLen y.shape i) →
        y.at c = sumAxes (coreAxes n B tgt) (prodAt args) c := by
  set PA := args.map fun X => getPlates n X.shape with hPA
  -- W for each index
  have hW : ∀ ind, ∃ W, IsBroadcast (tgt :: (PA.take ind ++ PA.drop (ind + 1))) W := by
    intro ind
    rw [exists_isBroadcast_iff]
    have hfit : ∀ k, ∀ s ∈ (tgt :: (PA.take ind ++ PA.drop (ind + 1))),
        s = tgt ∨ axisLen s k = 1 ∨ axisLen s k = axisLen B (k + n) := by
      intro k s hs
      rcases List.mem_cons.1 hs with rfl | hs
      · exact .inl rfl
      · right
        obtain ⟨i, hi, _, rfl⟩ := mem_of_mem_others hs
        have : ∃ X ∈ args, getPlates n X.shape = PA[i] := List.mem_map.1 (List.getElem_mem hi)
        obtain ⟨X, hX, he⟩ := this
        rw [← he, axisLen_getPlates]
        exact hB.fits _ _ (List.mem_map_of_mem hX)
    intro k s hs t ht
    have a1 := hfit k s hs
    have a2 := hfit k t ht
    have a3 := hT k
    rw [axisLen_getPlates] at a3
    rcases a1 with rfl | a1 <;> rcases a2 with rfl | a2
    · exact .inr (.inr rfl)
    · omega
    · omega
    · omega
  choose W hW using hW
  have hPAlen : PA.length = args.length := by simp [hPA]
  have hPAget : ∀ i (h : i < args.length), PA[i]'(by omega) = getPlates n (args[i]).shape := by
    intro i h; simp [hPA]
  have hWone : ∀ ind j, axisLen (W ind) j = 1 ↔
      (axisLen tgt j = 1 ∧ ∀ i (h : i < args.length), i ≠ ind → axisLen (args[i]).shape (j + n) = 1)
      := by
    intro ind j
    constructor
    · intro h
      constructor
      · have := (hW ind).fits j tgt (by simp); omega
      · intro i hi hne
        have h2 := (hW ind).fits j (PA[i]'(by omega)) (by
          apply List.mem_cons_of_mem
          exact mem_others (by omega) hne)
        rw [hPAget i hi, axisLen_getPlates] at h2
        omega
    · rintro ⟨h1, h2⟩
      rcases (hW ind).attained j with h | ⟨s, hs, h⟩
      · exact h
      · rcases List.mem_cons.1 hs with rfl | hs
        · omega
        · obtain ⟨i, hi, hne, rfl⟩ := mem_of_mem_others hs
          rw [hPAget i (by omega), axisLen_getPlates] at h
          have := h2 i (by omega) hne
          omega
  have hcol : ∀ ind (h : ind < args.length),
      CollapsesTo (getPlates n (args[ind]).shape) (W ind) := by
    intro ind hind j
    rw [axisLen_getPlates]
    have a1 := hB.fits (j + n) _ (List.mem_map_of_mem (List.getElem_mem hind))
    rcases (hW ind).attained j with h | ⟨s, hs, h⟩
    · exact .inr (.inl h)
    · rcases List.mem_cons.1 hs with rfl | hs
      · have a3 := hT j
        rw [axisLen_getPlates] at a3
        omega
      · obtain ⟨i, hi, hne, rfl⟩ := mem_of_mem_others hs
        rw [hPAget i (by omega), axisLen_getPlates] at h
        have a2 := hB.fits (j + n) _ (List.mem_map_of_mem (List.getElem_mem (l := args) (n := i) (by omega)))
        omega
  -- stage 1
  have hst : ∀ ind (h : ind < args.length), ∃ Y, collapseOne tgt n PA ind args[ind] = .ok Y ∧
      Y.shape.length = (args[ind]).shape.length ∧
      (∀ i, axisLen Y.shape i = if n ≤ i ∧ axisLen (args[ind]).shape i ≠ 1 ∧
        axisLen (W ind) (i - n) = 1 then 1 else axisLen (args[ind]).shape i) ∧
      ∀ c, Y.at c = sumAxes ((descSel (getPlates n (args[ind]).shape).length
        (collapsePred (getPlates n (args[ind]).shape) (W ind))).map
          fun j => (j + n, axisLen (args[ind]).shape (j + n))) (args[ind]).at c :=
    fun ind h => collapseOne_ok (hW ind) (hcol ind h)
  -- the list of collapsed arrays
  have hmap : ∃ Ys : List (Arr α), ((args.zipIdx).mapM fun p => collapseOne tgt n PA p.2 p.1) = .ok Ys ∧
      Ys.length = args.length ∧ ∀ ind (h : ind < args.length) (h' : ind < Ys.length),
        collapseOne tgt n PA ind args[ind] = .ok Ys[ind] := by
    have : Nonempty (Arr α) := ⟨⟨[], fun _ => 0⟩⟩
    choose! Yf hYf using hst
    refine ⟨(args.zipIdx).map fun p => Yf p.2, ?_, by simp, ?_⟩
    · apply mapM_ok_of
      intro p hp
      obtain ⟨X, i⟩ := p
      have := List.mem_zipIdx_iff_getElem?.1 hp
      obtain ⟨hi, he⟩ := List.getElem?_eq_some_iff.1 this
      simp only at hi he ⊢
      rw [← he]
      exact (hYf i hi).1
    · intro ind h h'
      simp
      exact (hYf ind h).1
  obtain ⟨Ys, hYs, hYlen, hYget⟩ := hmap
  -- properties of each Y
  have hY : ∀ ind (h : ind < args.length) (h' : ind < Ys.length),
      (Ys[ind]).shape.length = (args[ind]).shape.length ∧
      (∀ i, axisLen (Ys[ind]).shape i = if n ≤ i ∧ axisLen (args[ind]).shape i ≠ 1 ∧
        axisLen (W ind) (i - n) = 1 then 1 else axisLen (args[ind]).shape i) ∧
      ∀ c, (Ys[ind]).at c = sumAxes ((descSel (getPlates n (args[ind]).shape).length
        (collapsePred (getPlates n (args[ind]).shape) (W ind))).map
          fun j => (j + n, axisLen (args[ind]).shape (j + n))) (args[ind]).at c := by
    intro ind h h'
    obtain ⟨Y, h1, h2⟩ := hst ind h
    rw [hYget ind h h'] at h1
    cases h1
    exact h2
  have hYne : Ys ≠ [] := by
    intro h; apply hne; apply List.eq_nil_of_length_eq_zero; rw [← hYlen, h]; rfl
  -- broadcast shape of the collapsed arrays
  have hB'ex : ∃ B', IsBroadcast (Ys.map (·.shape)) B' := by
    rw [exists_isBroadcast_iff]
    have hfit : ∀ k, ∀ s ∈ Ys.map (·.shape), axisLen s k = 1 ∨ axisLen s k = axisLen B k := by
      intro k s hs
      obtain ⟨Y, hYm, rfl⟩ := List.mem_map.1 hs
      obtain ⟨i, hi, rfl⟩ := List.getElem_of_mem hYm
      have := (hY i (by omega) hi).2.1 k
      have a1 := hB.fits k _ (List.mem_map_of_mem (List.getElem_mem (l := args) (n := i) (by omega)))
      rw [this]
      split <;> omega
    intro k s hs t ht
    have a1 := hfit k s hs
    have a2 := hfit k t ht
    omega
  obtain ⟨B', hB'⟩ := hB'ex
  have hB'len : B'.length = B.length := by
    rw [isBroadcast_length hB', isBroadcast_length hB]
    unfold maxNdim
    rw [List.foldl_map, List.foldl_map]
    have : Ys.map (fun Y => Y.shape.length) = args.map (fun X => X.shape.length) := by
      apply List.ext_getElem
      · simp [hYlen]
      · intro i h1 h2
        simp at h1 h2
        simp [(hY i h2 h1).1]
    have e1 : ∀ (l : List (Arr α)) (m0 : Nat), l.foldl (fun m X => max m X.shape.length) m0
        = (l.map (fun X => X.shape.length)).foldl max m0 := by
      intro l m0; rw [List.foldl_map]
    rw [e1, e1, this]
  -- lengths of B'
  have hB'one : ∀ i, (∃ ind, ∃ h : ind < args.length, n ≤ i ∧ axisLen (args[ind]).shape i ≠ 1 ∧
      axisLen (W ind) (i - n) = 1) → axisLen B' i = 1 := by
    rintro i ⟨ind, hind, h1, h2, h3⟩
    have h4 := ((hWone ind (i - n)).1 h3).2
    rw [Nat.sub_add_cancel h1] at h4
    rcases hB'.attained i with h | ⟨s, hs, h⟩
    · exact h
    · obtain ⟨Y, hYm, rfl⟩ := List.mem_map.1 hs
      obtain ⟨k, hk, rfl⟩ := List.getElem_of_mem hYm
      rw [(hY k (by omega) hk).2.1 i] at h
      by_cases hkind : k = ind
      · subst hkind
        rw [if_pos ⟨h1, h2, h3⟩] at h
        exact h.symm
      · have := h4 k (by omega) hkind
        rw [this] at h
        simp at h
        exact h.symm
  have hB'eq : ∀ i, ¬ (∃ ind, ∃ h : ind < args.length, n ≤ i ∧ axisLen (args[ind]).shape i ≠ 1 ∧
      axisLen (W ind) (i - n) = 1) → axisLen B' i = axisLen B i := by
    intro i hno
    have hYi : ∀ k (hk : k < Ys.length) (hk' : k < args.length),
        axisLen (Ys[k]).shape i = axisLen (args[k]).shape i := by
      intro k hk hk'
      rw [(hY k hk' hk).2.1 i, if_neg]
      intro h
      exact hno ⟨k, hk', h⟩
    rcases hB'.attained i with h | ⟨s, hs, h⟩
    · rw [h]
      rcases hB.attained i with h5 | ⟨s, hs, h5⟩
      · exact h5.symm
      · obtain ⟨X, hXm, rfl⟩ := List.mem_map.1 hs
        obtain ⟨k, hk, rfl⟩ := List.getElem_of_mem hXm
        have a1 := hB'.fits i _ (List.mem_map_of_mem (List.getElem_mem (l := Ys) (n := k) (by omega)))
        rw [hYi k (by omega) hk] at a1
        omega
    · obtain ⟨Y, hYm, rfl⟩ := List.mem_map.1 hs
      obtain ⟨k, hk, rfl⟩ := List.getElem_of_mem hYm
      rw [hYi k hk (by omega)] at h
      have a1 := hB.fits i _ (List.mem_map_of_mem (List.getElem_mem (l := args) (n := k) (by omega)))
      by_cases h6 : axisLen B' i = 1
      · rw [h6]
        rcases hB.attained i with h5 | ⟨s, hs, h5⟩
        · exact h5.symm
        · obtain ⟨X, hXm, rfl⟩ := List.mem_map.1 hs
          obtain ⟨k, hk, rfl⟩ := List.getElem_of_mem hXm
          have a1 := hB'.fits i _ (List.mem_map_of_mem (List.getElem_mem (l := Ys) (n := k) (by omega)))
          rw [hYi k (by omega) hk] at a1
          omega
      · omega
  have hT' : CollapsesTo (getPlates n B') tgt := by
    intro j
    rw [axisLen_getPlates]
    have a1 := hT j
    rw [axisLen_getPlates] at a1
    by_cases hc : (∃ ind, ∃ h : ind < args.length, n ≤ j + n ∧
      axisLen (args[ind]).shape (j + n) ≠ 1 ∧ axisLen (W ind) (j + n - n) = 1)
    · exact .inl (hB'one _ hc)
    · rw [hB'eq _ hc]; exact a1
  set js := descSel (getPlates n B').length (collapsePred (getPlates n B') tgt) with hjs
  have hmemjs : ∀ j, j ∈ js ↔ axisLen B' (j + n) ≠ 1 ∧ axisLen tgt j = 1 := by
    intro j
    rw [hjs, mem_descSel, collapsePred]
    simp only [decide_eq_true_eq, axisLen_getPlates]
    constructor
    · exact fun h => h.2
    · intro h
      refine ⟨?_, h⟩
      by_contra hcon
      rw [length_getPlates] at hcon
      exact h.1 (axisLen_of_ge (by omega))
  -- all collapsed axes as one list
  set Abs := (args.zipIdx).flatMap (fun p => (descSel (getPlates n p.1.shape).length
        (collapsePred (getPlates n p.1.shape) (W p.2))).map
          fun j => (j + n, axisLen p.1.shape (j + n))) with hAbs
  have memA : ∀ (X : Arr α) (w : List Nat) (i d : Nat),
      (i, d) ∈ ((descSel (getPlates n X.shape).length (collapsePred (getPlates n X.shape) w)).map
          fun j => (j + n, axisLen X.shape (j + n))) ↔
        n ≤ i ∧ axisLen X.shape i ≠ 1 ∧ axisLen w (i - n) = 1 ∧ d = axisLen X.shape i := by
    intro X w i d
    simp only [List.mem_map, mem_descSel, collapsePred, decide_eq_true_eq, Prod.mk.injEq,
      axisLen_getPlates, length_getPlates]
    constructor
    · rintro ⟨j, ⟨_, h1, h2⟩, rfl, rfl⟩
      exact ⟨by omega, h1, by simpa using h2, rfl⟩
    · rintro ⟨h1, h2, h3, rfl⟩
      refine ⟨i - n, ⟨?_, by rwa [Nat.sub_add_cancel h1], h3⟩, by omega, by
        rw [Nat.sub_add_cancel h1]⟩
      by_contra hc
      exact h2 (axisLen_of_ge (by omega))
  have hprodY : ∀ c, prodAt Ys c = sumAxes Abs (prodAt args) c := by
    intro c
    have h1 := prod_collapse ((args.zipIdx).map fun p => (p.1,
        (descSel (getPlates n p.1.shape).length
        (collapsePred (getPlates n p.1.shape) (W p.2))).map
          fun j => (j + n, axisLen p.1.shape (j + n)))) (by
      rw [List.pairwise_iff_getElem]
      intro a b ha hb hab
      simp only [List.length_map, List.length_zipIdx] at ha hb
      simp only [List.getElem_map, List.getElem_zipIdx, Nat.zero_add]
      constructor
      · rintro ⟨i, d⟩ hi
        obtain ⟨h1, h2, h3, -⟩ := (memA _ _ _ _).1 hi
        have := ((hWone a (i - n)).1 h3).2 b hb (by omega)
        rwa [Nat.sub_add_cancel h1] at this
      · rintro ⟨i, d⟩ hi
        obtain ⟨h1, h2, h3, -⟩ := (memA _ _ _ _).1 hi
        have := ((hWone b (i - n)).1 h3).2 a ha (by omega)
        rwa [Nat.sub_add_cancel h1] at this) c
    rw [List.map_map, List.map_map, List.flatMap_map] at h1
    have e1 : ((fun x : Arr α × List (Nat × Nat) => x.1) ∘ fun p : Arr α × Nat => (p.1,
        (descSel (getPlates n p.1.shape).length
        (collapsePred (getPlates n p.1.shape) (W p.2))).map
          fun j => (j + n, axisLen p.1.shape (j + n)))) = Prod.fst := rfl
    rw [e1, List.zipIdx_map_fst] at h1
    rw [hAbs, ← h1]
    unfold prodAt
    congr 1
    apply List.ext_getElem
    · simp [hYlen]
    · intro i h1 h2
      simp only [List.length_map, List.length_zipIdx] at h1 h2
      simp only [List.getElem_map, List.getElem_zipIdx, comp, Nat.zero_add]
      exact (hY i (by omega) h1).2.2 c
  -- the final axes
  set Afin := selAxes B' (fun k => decide (n ≤ k ∧ (k - n) ∈ js)) with hAfin
  have memAfin : ∀ i d, (i, d) ∈ Afin ↔
      n ≤ i ∧ axisLen B' i ≠ 1 ∧ axisLen tgt (i - n) = 1 ∧ d = axisLen B' i := by
    intro i d
    rw [hAfin]
    unfold selAxes
    simp only [List.mem_map, List.mem_filter, List.mem_range, decide_eq_true_eq, Prod.mk.injEq,
      hmemjs]
    constructor
    · rintro ⟨k, ⟨_, h1, h2, h3⟩, rfl, rfl⟩
      rw [Nat.sub_add_cancel h1] at h2
      exact ⟨h1, h2, h3, rfl⟩
    · rintro ⟨h1, h2, h3, rfl⟩
      refine ⟨i, ⟨?_, h1, by rwa [Nat.sub_add_cancel h1], h3⟩, rfl, rfl⟩
      by_contra hc
      exact h2 (axisLen_of_ge (by omega))
  have hperm : (Afin ++ Abs).Perm (coreAxes n B tgt) ∧ ((Afin ++ Abs).map (·.1)).Nodup := by
    have hAbsmem : ∀ i d, (i, d) ∈ Abs ↔ ∃ ind, ∃ h : ind < args.length, n ≤ i ∧
        axisLen (args[ind]).shape i ≠ 1 ∧ axisLen (W ind) (i - n) = 1 ∧
        d = axisLen (args[ind]).shape i := by
      intro i d
      rw [hAbs, List.mem_flatMap]
      constructor
      · rintro ⟨⟨X, ind⟩, hp, h⟩
        have := List.mem_zipIdx_iff_getElem?.1 hp
        obtain ⟨hi, he⟩ := List.getElem?_eq_some_iff.1 this
        simp only at hi he h
        refine ⟨ind, hi, ?_⟩
        rw [he]
        exact (memA _ _ _ _).1 h
      · rintro ⟨ind, hind, h⟩
        refine ⟨(args[ind], ind), ?_, ?_⟩
        · rw [List.mem_zipIdx_iff_getElem?]
          exact List.getElem?_eq_getElem hind
        · exact (memA _ _ _ _).2 h
    have hnd : ((Afin ++ Abs).map (·.1)).Nodup := by
      rw [List.map_append, List.nodup_append]
      refine ⟨selAxes_nodup _ _, ?_, ?_⟩
      · rw [hAbs, List.map_flatMap, List.nodup_flatMap]
        constructor
        · intro p _
          rw [List.map_map]
          apply List.Nodup.map
          · intro a b h; simpa using h
          · exact nodup_descSel _ _
        · rw [List.pairwise_iff_getElem]
          intro a b ha hb hab
          simp only [List.length_zipIdx] at ha hb
          simp only [List.getElem_zipIdx, Nat.zero_add]
          intro i hi hi'
          rw [List.mem_map] at hi hi'
          obtain ⟨⟨i1, d1⟩, hm, rfl⟩ := hi
          obtain ⟨⟨i2, d2⟩, hm', h5⟩ := hi'
          simp only at h5
          subst h5
          obtain ⟨h1, h2, h3, -⟩ := (memA _ _ _ _).1 hm
          obtain ⟨h1', h2', h3', -⟩ := (memA _ _ _ _).1 hm'
          have := ((hWone a (i2 - n)).1 h3).2 b hb (by omega)
          rw [Nat.sub_add_cancel h1] at this
          exact h2' this
      · intro i hi i' hi' he
        subst he
        rw [List.mem_map] at hi hi'
        obtain ⟨⟨i1, d1⟩, hm, rfl⟩ := hi
        obtain ⟨⟨i2, d2⟩, hm', h5⟩ := hi'
        simp only at h5
        subst h5
        obtain ⟨ind, hind, h1, h2, h3, -⟩ := (hAbsmem _ _).1 hm'
        exact ((memAfin _ _).1 hm).2.1 (hB'one _ ⟨ind, hind, h1, h2, h3⟩)
    refine ⟨?_, hnd⟩
    rw [List.perm_ext_iff_of_nodup hnd.of_map (nodup_coreAxes n B tgt).of_map]
    rintro ⟨i, d⟩
    rw [List.mem_append, memAfin, hAbsmem, mem_coreAxes]
    constructor
    · rintro (⟨h1, h2, h3, h4⟩ | ⟨ind, hind, h1, h2, h3, h4⟩)
      · have hno : ¬ (∃ ind, ∃ h : ind < args.length, n ≤ i ∧ axisLen (args[ind]).shape i ≠ 1 ∧
          axisLen (W ind) (i - n) = 1) := fun h => h2 (hB'one i h)
        have := hB'eq i hno
        exact ⟨h1, h3, by omega, by omega⟩
      · have a1 := hB.fits i _ (List.mem_map_of_mem (List.getElem_mem hind))
        have := ((hWone ind (i - n)).1 h3).1
        exact ⟨h1, this, by omega, by omega⟩
    · rintro ⟨h1, h2, h3, h4⟩
      by_cases hc : (∃ ind, ∃ h : ind < args.length, n ≤ i ∧ axisLen (args[ind]).shape i ≠ 1 ∧
          axisLen (W ind) (i - n) = 1)
      · obtain ⟨ind, hind, h5, h6, h7⟩ := hc
        have a1 := hB.fits i _ (List.mem_map_of_mem (List.getElem_mem hind))
        exact .inr ⟨ind, hind, h5, h6, h7, by omega⟩
      · have := hB'eq i hc
        exact .inl ⟨h1, by omega, h2, by omega⟩
  have hsumfin : ∀ c, sumAxes Afin (prodAt Ys) c = sumAxes (coreAxes n B tgt) (prodAt args) c := by
    intro c
    rw [show prodAt Ys = sumAxes Abs (prodAt args) from funext hprodY, ← sumAxes_append]
    exact sumAxes_perm hperm.1 hperm.2 _ _
  -- common: shape after the final collapse
  have hfinshape : ∀ i, (if n ≤ i ∧ (i - n) ∈ js then 1 else axisLen B' i)
      = if n ≤ i ∧ axisLen tgt (i - n) = 1 then 1 else axisLen B i := by
    intro i
    by_cases h1 : n ≤ i
    · simp only [hmemjs, h1, true_and, Nat.sub_add_cancel h1]
      by_cases h2 : axisLen tgt (i - n) = 1
      · by_cases h3 : axisLen B' i = 1
        · simp [h2, h3]
        · simp [h2, h3]
      · simp only [h2, and_false, if_false]
        apply hB'eq
        rintro ⟨ind, hind, _, _, h5⟩
        exact h2 ((hWone ind (i - n)).1 h5).1
    · simp only [h1, false_and, if_false]
      apply hB'eq
      rintro ⟨ind, hind, h5, _⟩
      exact h1 h5
  have hlead : ∀ i, tgt.length + n ≤ i →
      (if n ≤ i ∧ axisLen tgt (i - n) = 1 then 1 else axisLen B i) = 1 := by
    intro i hi
    rw [if_pos]
    exact ⟨by omega, axisLen_of_ge (by omega)⟩
  -- assemble
  unfold sumToPlatesCore
  simp only []
  rw [← hPA, hYs]
  simp only [bind, Except.bind]
  have hgp := (broadcastedShape_ok _ _).2 (isBroadcast_getPlates n hB')
  rw [hgp]
  simp only [axesToCollapse_ok hT']
  rw [← hjs]
  by_cases hnil : js = []
  · obtain ⟨y, hy1, hy2, hy3⟩ := reduceMul_ok hYne hB'
    have hyaxis : ∀ i, axisLen y.shape i = if n ≤ i ∧ axisLen tgt (i - n) = 1 then 1
        else axisLen B i := by
      intro i
      rw [hy2, ← hfinshape i]
      simp [hnil]
    obtain ⟨z, hz1, hz2, hz3, hz4⟩ := squeezeToDim_ok (X := y) (d := tgt.length + n)
      (fun i hi => by rw [hyaxis, hlead i hi])
    refine ⟨z, ?_, ?_, ?_, ?_⟩
    · simp only [hnil, List.map_nil, ne_eq, not_true_eq_false, if_false, hy1]
      exact hz1
    · rw [hz2, hy2, hB'len]
    · intro i; rw [hz3, hyaxis]
    · intro c _
      rw [hz4, hy3, ← hsumfin]
      rw [hAfin]
      simp [hnil, selAxes, sumAxes]
  · have hseq : keptAxes B'.length
        (.seq ((js.map (· + 1)).map fun k => -((k + n : Nat) : Int))) true
        = .ok ((List.range B'.length).filter fun p => decide (¬ (n ≤ B'.length - 1 - p ∧
            (B'.length - 1 - p - n) ∈ js))) := by
      rw [keptAxes_sum_seq]
      congr 1
      apply List.filter_congr
      intro p hp
      have hp : p < B'.length := by simpa using hp
      apply decide_eq_decide.2
      apply not_congr
      simp only [Names, List.mem_map, List.map_map, comp]
      constructor
      · rintro ⟨a, ⟨j, hj, rfl⟩, h | h⟩
        · exfalso; push_cast at h; omega
        · push_cast at h
          have : B'.length - 1 - p - n = j := by omega
          rw [this]
          exact ⟨by omega, hj⟩
      · rintro ⟨h1, h2⟩
        refine ⟨_, ⟨_, h2, rfl⟩, .inr ?_⟩
        push_cast
        omega
    have hsort : ∀ q : Nat → Bool, (List.range B'.length).filter q
        = (List.range B'.length).filter (· ∈ (List.range B'.length).filter q) := by
      intro q
      apply List.filter_congr
      intro p hp
      simp at hp
      simp [hp]
    obtain ⟨y, hy1, hy2, hy3⟩ := sumMultiply_keepdims hYne hB' hseq (hsort _)
    have hselp : selAxes B' (fun k => decide (B'.length - 1 - k ∉
        (List.range B'.length).filter fun p => decide (¬ (n ≤ B'.length - 1 - p ∧
            (B'.length - 1 - p - n) ∈ js)))) = Afin := by
      rw [hAfin]
      unfold selAxes
      congr 1
      apply List.filter_congr
      intro k hk
      have hk : k < B'.length := by simpa using hk
      apply decide_eq_decide.2
      rw [List.mem_filter]
      have e : B'.length - 1 - (B'.length - 1 - k) = k := by omega
      simp only [List.mem_range, e, decide_eq_true_eq]
      have : B'.length - 1 - k < B'.length := by omega
      tauto
    have hyaxis : ∀ i, axisLen y.shape i = if n ≤ i ∧ axisLen tgt (i - n) = 1 then 1
        else axisLen B i := by
      intro i
      rw [← hfinshape i]
      have hl : y.shape.length = B'.length := by rw [hy2]; simp
      by_cases hi : i < B'.length
      · have h1 : i = y.shape.length - 1 - (B'.length - 1 - i) := by omega
        have h2 := axisLen_eq_getElem (r := y.shape) (j := B'.length - 1 - i) (by omega)
        rw [← h1] at h2
        rw [h2]
        simp only [hy2, List.getElem_map, List.getElem_range]
        have e : B'.length - 1 - (B'.length - 1 - i) = i := by omega
        have hlt : B'.length - 1 - i < B'.length := by omega
        simp only [List.mem_filter, List.mem_range, e, decide_eq_true_eq, hlt, true_and]
        by_cases h : n ≤ i ∧ i - n ∈ js
        · simp [h]
        · simp [h]
      · rw [axisLen_of_ge (by omega), axisLen_of_ge (s := B') (by omega)]
        simp
    obtain ⟨z, hz1, hz2, hz3, hz4⟩ := squeezeToDim_ok (X := y) (d := tgt.length + n)
      (fun i hi => by rw [hyaxis, hlead i hi])
    refine ⟨z, ?_, ?_, ?_, ?_⟩
    · rw [if_pos (by simpa using hnil), hy1]
      exact hz1
    · rw [hz2, ← hB'len, hy2]; simp
    · intro i; rw [hz3, hyaxis]
    · intro c hc
      rw [hz4]
      unfold Arr.at
      have hv : ValidIn y.shape (restrict y.shape c) := by
        intro i
        have := hc i
        rw [hz3] at this
        unfold restrict
        split <;> omega
      rw [hy3 _ hv, hselp, ← hsumfin c]
      apply sumAxes_prodAt_base hB'
      intro k hk hkA
      unfold restrict
      rw [if_neg]
      rw [hyaxis, ← hfinshape]
      rw [if_neg]
      · exact hk
      · rintro ⟨h1, h2⟩
        apply hkA
        rw [List.mem_map]
        have := (hmemjs _).1 h2
        exact ⟨(k, axisLen B' k), (memAfin _ _).2 ⟨h1, hk, this.2, rfl⟩, rfl⟩

end Verif
