import Verif.Lemmas.Multiplier
import Verif.Model.SumToShape

/-!
# C07: `sum_to_shape` is the adjoint of broadcasting
-/

namespace Verif
open Spec Function

theorem axisLen_getD {s : List Nat} {i : Nat} (h : i < s.length) :
    s.getD i 0 = axisLen s (s.length - 1 - i) := by
  rw [axisLen_eq_getElem h, List.getD_eq_getElem?_getD, List.getElem?_eq_getElem h]; rfl

theorem foldlM_congr_of {β σ : Type} (l : List β) (f g : σ → β → Except PyErr σ)
    (h : ∀ s b, b ∈ l → f s b = g s b) (s : σ) : l.foldlM f s = l.foldlM g s := by
  induction l generalizing s with
  | nil => rfl
  | cons a l ih =>
    rw [List.foldlM_cons, List.foldlM_cons, h s a (by simp)]
    cases g s a with
    | error e => rfl
    | ok s' => exact ih (fun s b hb => h s b (by simp [hb])) s'

/-- The axes which `sum_to_shape` sums but keeps, as right positions. -/
def keepPred (ys s : List Nat) (k : Nat) : Bool := decide (axisLen s k = 1 ∧ axisLen ys k > 1)

theorem sumToShapeAxes_ok {ys s : List Nat} (hl : ys.length ≤ s.length)
    (h : ∀ k < ys.length, axisLen s k = 1 ∨ axisLen ys k = axisLen s k) :
    sumToShapeAxes ys s = .ok ((descSel ys.length (keepPred ys s)).map (· + 1)) := by
  unfold sumToShapeAxes
  have := foldlM_range_append ys.length
    (fun p => .ok (keepPred ys s (ys.length - 1 - p)))
    (fun p => keepPred ys s (ys.length - 1 - p)) (fun p => ys.length - p) (fun _ _ => rfl) []
  rw [List.nil_append] at this
  have h2 : ((List.range ys.length).filter fun p => keepPred ys s (ys.length - 1 - p)).map
      (fun p => ys.length - p) = (descSel ys.length (keepPred ys s)).map (· + 1) := by
    simp only [descSel, List.map_map]
    apply List.map_congr_left
    intro p hp
    simp at hp
    simp only [comp]
    omega
  rw [← h2, ← this]
  apply foldlM_congr_of
  intro axes p hp
  have hp : p < ys.length := by simpa using hp
  simp only []
  rw [show ys.length - p = (ys.length - 1 - p) + 1 by omega, negIdx_eq (by omega),
    negIdx_eq (by omega)]
  simp only [bind, Except.bind, pure, Except.pure]
  have := h (ys.length - 1 - p) (by omega)
  unfold keepPred
  by_cases h1 : axisLen s (ys.length - 1 - p) = 1
  · by_cases h2 : axisLen ys (ys.length - 1 - p) > 1 <;> simp [h1, h2]
  · have : axisLen ys (ys.length - 1 - p) = axisLen s (ys.length - 1 - p) := by omega
    simp [h1, this]

theorem sumToShapeAxes_error {ys s : List Nat} (hl : ys.length ≤ s.length)
    (h : ¬ ∀ k < ys.length, axisLen s k = 1 ∨ axisLen ys k = axisLen s k) :
    sumToShapeAxes ys s = .error .valueError := by
  unfold sumToShapeAxes
  apply foldlM_error_of
  · intro axes p e' hp h1
    have hp : p < ys.length := by simpa using hp
    simp only [] at h1
    rw [show ys.length - p = (ys.length - 1 - p) + 1 by omega, negIdx_eq (by omega),
      negIdx_eq (by omega)] at h1
    simp only [bind, Except.bind, pure, Except.pure] at h1
    split at h1
    · split at h1 <;> cases h1
    · split at h1
      · cases h1; rfl
      · cases h1
  · simp only [not_forall] at h
    obtain ⟨k, hk, h2⟩ := h
    refine ⟨ys.length - 1 - k, by simp; omega, fun axes => ⟨.valueError, ?_⟩⟩
    simp only []
    rw [show ys.length - (ys.length - 1 - k) = k + 1 by omega, negIdx_eq (by omega),
      negIdx_eq (by omega)]
    simp only [not_or] at h2
    simp [bind, Except.bind, h2.1, h2.2]
    rfl

theorem sumAxes_at_base {α : Type _} [AddCommMonoid α] (X : Arr α) (L : List (Nat × Nat))
    {c c' : Nat → Nat} (h : ∀ k, axisLen X.shape k ≠ 1 → k ∉ L.map (·.1) → c k = c' k) :
    sumAxes L X.at c = sumAxes L X.at c' := by
  induction L generalizing c c' with
  | nil => exact X.at_congr fun k hk => h k hk (by simp)
  | cons p L ih =>
    obtain ⟨j, d⟩ := p
    simp only [sumAxes]
    apply Finset.sum_congr rfl
    intro t _
    apply ih
    intro k hk hkL
    by_cases hkj : k = j
    · subst hkj; simp
    · rw [update_of_ne hkj, update_of_ne hkj]
      exact h k hk (by simpa [hkj] using hkL)

theorem axisLen_drop (s : List Nat) (m k : Nat) :
    axisLen (s.drop (s.length - m)) k = if k < m then axisLen s k else 1 := by
  unfold axisLen
  rw [List.reverse_drop, List.getElem?_take]
  by_cases hk : k < m
  · by_cases hks : k < s.length
    · rw [if_pos (by omega), if_pos hk]
    · rw [if_pos hk]
      split
      · rfl
      · rw [List.getElem?_eq_none (by simp; omega)]
  · rw [if_neg hk, if_neg (by omega)]; rfl

/-- The leading axes are summed. -/
theorem sumLeading_spec {α : Type _} [AddCommMonoid α] (X : Arr α) (m : Nat) :
    let Y := if X.shape.length > m then npSumLeading X m else X
    Y.shape.length = min X.shape.length m ∧
      (∀ k, axisLen Y.shape k = if k < m then axisLen X.shape k else 1) ∧
      ∀ c, Y.at c = sumAxes (selAxes X.shape fun k => decide (m ≤ k)) X.at c := by
  simp only []
  split
  · rename_i h
    refine ⟨by simp [npSumLeading]; omega, fun k => axisLen_drop _ _ _, ?_⟩
    intro c
    show sumAxes (selAxes X.shape fun k => decide (m ≤ k)) X.at (restrict _ c) = _
    apply sumAxes_at_base
    intro k hk hkL
    unfold restrict
    rw [if_neg]
    show axisLen (X.shape.drop (X.shape.length - m)) k ≠ 1
    rw [axisLen_drop]
    rw [selAxes_keys] at hkL
    have hkl : k < X.shape.length := by
      by_contra hc; exact hk (axisLen_of_ge (by omega))
    simp [hkl] at hkL
    rw [if_pos (by omega)]
    exact hk
  · rename_i h
    refine ⟨by omega, ?_, ?_⟩
    · intro k
      split
      · rfl
      · exact axisLen_of_ge (by omega)
    · intro c
      have : selAxes X.shape (fun k => decide (m ≤ k)) = [] := by
        unfold selAxes
        rw [List.filter_eq_nil_iff.2]
        · rfl
        · intro a ha; simp at ha; simp; omega
      rw [this]
      rfl

/-- Which axes of `X` are summed in total. -/
def summedPred (x s : List Nat) (k : Nat) : Bool :=
  decide (s.length ≤ k ∨ (axisLen s k = 1 ∧ axisLen x k > 1))

theorem sumToShape_ok {α : Type _} [AddCommMonoid α] (X : Arr α) (s : List Nat)
    (h : ∀ k, k < s.length → k < X.shape.length →
      axisLen s k = 1 ∨ axisLen X.shape k = axisLen s k) :
    ∃ R, sumToShape X s = .ok R ∧ R.shape.length = min X.shape.length s.length ∧
      (∀ k, axisLen R.shape k = if summedPred X.shape s k then 1 else axisLen X.shape k) ∧
      ∀ c, R.at c = sumAxes (selAxes X.shape (summedPred X.shape s)) X.at c := by
  obtain ⟨h1, h2, h3⟩ := sumLeading_spec X s.length
  set Y := if X.shape.length > s.length then npSumLeading X s.length else X with hY
  have hax := sumToShapeAxes_ok (ys := Y.shape) (s := s) (by omega) (by
    intro k hk
    rw [h2, if_pos (by omega)]
    exact h k (by omega) (by omega))
  obtain ⟨R, hR1, hR2, hR3⟩ := npSumKeep_ok Y (descSel Y.shape.length (keepPred Y.shape s))
    (nodup_descSel _ _) (fun j hj => (mem_descSel.1 hj).1)
  refine ⟨R, ?_, ?_, ?_, ?_⟩
  · unfold sumToShape
    simp only [← hY, hax, bind, Except.bind]
    exact hR1
  · rw [hR2, length_collapseShape, h1]
  · intro k
    by_cases hk : k < Y.shape.length
    · rw [hR2, axisLen_collapseShape _ _ _ hk, h2]
      have : (k + 1 ∈ (descSel Y.shape.length (keepPred Y.shape s)).map (· + 1)) ↔
          (axisLen s k = 1 ∧ axisLen X.shape k > 1) := by
        simp only [List.mem_map, Nat.add_right_cancel_iff, exists_eq_right, mem_descSel, hk,
          true_and, keepPred, decide_eq_true_eq, h2, if_pos (show k < s.length by omega)]
      simp only [this, summedPred, decide_eq_true_eq]
      split
      · rw [if_pos (by tauto)]
      · rw [if_pos (by omega), if_neg (by omega)]
    · rw [axisLen_of_ge (by rw [hR2, length_collapseShape]; omega)]
      split
      · rfl
      · rename_i hn
        simp only [summedPred, decide_eq_true_eq, not_or] at hn
        exact (axisLen_of_ge (by omega)).symm
  · intro c
    rw [hR3]
    rw [sumAxes_congr (f := Y.at) (g := sumAxes (selAxes X.shape fun k => decide (s.length ≤ k)) X.at) _
      (fun c' _ => h3 c'), ← sumAxes_append]
    apply Eq.symm
    apply sumAxes_perm _ (selAxes_nodup _ _)
    rw [List.perm_ext_iff_of_nodup (selAxes_nodup _ _).of_map]
    · rintro ⟨i, d⟩
      rw [List.mem_append, mem_selAxes, mem_selAxes, List.mem_map]
      simp only [summedPred, decide_eq_true_eq, mem_descSel, keepPred, Prod.mk.injEq, h2]
      constructor
      · rintro ⟨hi, hs, rfl⟩
        rcases hs with hs | hs
        · exact .inr ⟨hi, hs, rfl⟩
        · by_cases his : s.length ≤ i
          · exact .inr ⟨hi, his, rfl⟩
          · refine .inl ⟨i, ⟨by omega, hs.1, ?_⟩, rfl, ?_⟩ <;> rw [if_pos (by omega)]
            exact hs.2
      · rintro (⟨j, ⟨hj1, hj2, hj3⟩, rfl, rfl⟩ | ⟨hi, hs, rfl⟩)
        · rw [if_pos (by omega)] at hj3 ⊢
          exact ⟨by omega, .inr ⟨hj2, hj3⟩, rfl⟩
        · exact ⟨hi, .inl hs, rfl⟩
    · rw [List.nodup_append]
      refine ⟨?_, (selAxes_nodup _ _).of_map, ?_⟩
      · apply List.Nodup.map
        · intro a b hab; exact (Prod.mk.inj hab).1
        · exact nodup_descSel _ _
      · rintro ⟨i, d⟩ hi ⟨i', d'⟩ hi' he
        cases he
        rw [List.mem_map] at hi
        obtain ⟨j, hj, he⟩ := hi
        rw [mem_descSel] at hj
        rw [mem_selAxes] at hi'
        simp only [Prod.mk.injEq] at he
        simp only [decide_eq_true_eq] at hi'
        omega

/-- Summing to a shape is adjoint to broadcasting: for every array `y` of the result's shape,
`<sum_to_shape(X, s), y> = <X, broadcast(y)>`. -/
theorem C07_adjoint {α : Type} [CommSemiring α] (X R y : Arr α) (s : List Nat)
    (h : sumToShape X s = .ok R) (hy : y.shape = R.shape) :
    sumOver R.shape (fun c => R.at c * y.at c) = sumOver X.shape (fun c => X.at c * y.at c) := by
  have hcomp : ∀ k, k < s.length → k < X.shape.length →
      axisLen s k = 1 ∨ axisLen X.shape k = axisLen s k := by
    by_contra hc
    obtain ⟨h1, h2, h3⟩ := sumLeading_spec X s.length
    unfold sumToShape at h
    simp only [] at h
    rw [sumToShapeAxes_error (by omega)] at h
    · cases h
    · intro hall
      apply hc
      intro k hk1 hk2
      have := hall k (by omega)
      rwa [h2, if_pos hk1] at this
  obtain ⟨R', hR, hlen, hax, hval⟩ := sumToShape_ok X s hcomp
  rw [h] at hR
  cases hR
  have hindepY : ∀ k, axisLen R.shape k = 1 → ∀ c t, y.at (update c k t) = y.at c := by
    intro k hk c t
    exact y.at_update (by rw [hy]; exact hk)
  have hS1 : ∀ k, summedPred X.shape s k = true → axisLen R.shape k = 1 := by
    intro k hk; rw [hax, if_pos hk]
  let g : (Nat → Nat) → α := fun c =>
    sumAxes (selAxes X.shape (summedPred X.shape s)) (fun c => X.at c * y.at c) c
  have hg : ∀ c, R.at c * y.at c = g c := by
    intro c
    rw [hval]
    refine (sumAxes_mul_right _ X.at y.at c ?_).symm
    rintro ⟨i, d⟩ hi c t
    rw [mem_selAxes] at hi
    exact hindepY i (hS1 i hi.2.1) c t
  have hgind : ∀ k, axisLen R.shape k = 1 → k < R.shape.length → ∀ c t, g (update c k t) = g c := by
    intro k hk hkl c t
    by_cases hS : summedPred X.shape s k = true
    · apply sumAxes_base
      intro i hi
      rw [update_of_ne]
      rintro rfl
      apply hi
      rw [selAxes_keys]
      simp [hS]; omega
    · apply sumAxes_indep
      intro c t
      rw [hindepY k hk, X.at_update]
      rw [hax, if_neg hS] at hk
      exact hk
  simp only [hg]
  rw [sumOver_eq_sumAxes, sumOver_eq_sumAxes]
  have e1 := multiplier_sum 0 R.shape (fun _ => true) (summedPred X.shape s) g (by
    intro j hj _ hq c t
    exact hgind j (hS1 j hq) hj c t) (fun _ => 0)
  have hmap : ∀ L : List (Nat × Nat), (L.map fun a => (a.1 + 0, a.2)) = L := by
    intro L; simp
  simp only [hmap, Bool.true_and] at e1
  rw [← e1]
  have h1 : (((selAxes R.shape (summedPred X.shape s)).map (·.2)).prod) = 1 := by
    apply List.prod_eq_one
    intro d hd
    rw [List.mem_map] at hd
    obtain ⟨⟨i, e⟩, hi, rfl⟩ := hd
    rw [mem_selAxes] at hi
    obtain ⟨_, h2, rfl⟩ := hi
    exact hS1 i h2
  rw [h1, Nat.cast_one, one_mul]
  have e2 := sumAxes_perm (selAxes_split_perm X.shape (fun _ => true) (summedPred X.shape s))
    (selAxes_nodup _ _) (fun c => X.at c * y.at c) (fun _ => 0)
  rw [e2]
  simp only [Bool.true_and]
  have e3 := sumAxes_perm (List.perm_append_comm (l₁ := selAxes X.shape (summedPred X.shape s))
    (l₂ := selAxes X.shape fun k => !summedPred X.shape s k)) (by
      have := (selAxes_split_perm X.shape (fun _ => true) (summedPred X.shape s)).map (·.1)
      simp only [Bool.true_and] at this
      exact (this.nodup_iff).1 (selAxes_nodup _ _)) (fun c => X.at c * y.at c) (fun _ => 0)
  rw [e3, sumAxes_append]
  apply sumAxes_perm _ (selAxes_nodup _ _)
  rw [List.perm_ext_iff_of_nodup (selAxes_nodup _ _).of_map (selAxes_nodup _ _).of_map]
  rintro ⟨i, d⟩
  rw [mem_selAxes, mem_selAxes]
  have := hax i
  constructor
  · rintro ⟨a, b, rfl⟩
    have hb : ¬ summedPred X.shape s i = true := by simpa using b
    rw [if_neg hb] at this
    exact ⟨by omega, b, this⟩
  · rintro ⟨a, b, rfl⟩
    have hb : ¬ summedPred X.shape s i = true := by simpa using b
    rw [if_neg hb] at this
    simp only [summedPred, decide_eq_true_eq, not_or] at hb
    exact ⟨by omega, b, this.symm⟩

/-- It raises `ValueError` iff some axis present in both has a target length which is neither one nor
the length in `X`. -/
theorem C07_raises_iff {α : Type} [AddCommMonoid α] (X : Arr α) (s : List Nat) :
    (∃ e, sumToShape X s = .error e) ↔ ∃ k, k < s.length ∧ k < X.shape.length ∧
      axisLen s k ≠ 1 ∧ axisLen X.shape k ≠ axisLen s k := by
  constructor
  · rintro ⟨e, he⟩
    by_contra hc
    obtain ⟨R, hR, _⟩ := sumToShape_ok X s (by
      intro k h1 h2
      by_contra h3
      simp only [not_or] at h3
      exact hc ⟨k, h1, h2, h3.1, h3.2⟩)
    rw [hR] at he
    cases he
  · rintro ⟨k, hk1, hk2, hk3, hk4⟩
    obtain ⟨h1, h2, h3⟩ := sumLeading_spec X s.length
    refine ⟨.valueError, ?_⟩
    unfold sumToShape
    simp only []
    rw [sumToShapeAxes_error (by omega)]
    · rfl
    · intro hall
      have := hall k (by omega)
      rw [h2, if_pos hk1] at this
      tauto

/-- The result has the requested shape if `X` has at least as many axes and no axis to be reduced to
one has length zero.  Full claim: "the shape of the result will be s or an error is raised"; refuted
below without the two restrictions. -/
theorem C07_shape_partial {α : Type} [AddCommMonoid α] (X R : Arr α) (s : List Nat)
    (h : sumToShape X s = .ok R) (hlen : s.length ≤ X.shape.length)
    (h0 : ∀ k, k < s.length → axisLen s k = 1 → axisLen X.shape k ≠ 0) : R.shape = s := by
  have hcomp : ∀ k, k < s.length → k < X.shape.length →
      axisLen s k = 1 ∨ axisLen X.shape k = axisLen s k := by
    intro k h1 h2
    by_contra h3
    simp only [not_or] at h3
    obtain ⟨e, he⟩ := (C07_raises_iff X s).2 ⟨k, h1, h2, h3.1, h3.2⟩
    rw [h] at he
    cases he
  obtain ⟨R', hR, hl, hax, hval⟩ := sumToShape_ok X s hcomp
  rw [h] at hR
  cases hR
  apply axisLen_ext
  · omega
  · intro k
    rw [hax]
    by_cases hk : k < s.length
    · have := hcomp k hk (by omega)
      have := h0 k hk
      simp only [summedPred, decide_eq_true_eq]
      split <;> omega
    · rw [if_pos (by simp only [summedPred, decide_eq_true_eq]; omega)]
      exact (axisLen_of_ge (by omega)).symm

/-- An array with fewer axes keeps its shape (against the documented claim). -/
theorem C07_shape_fewer_axes_counterexample :
    ∃ R, sumToShape (⟨[2], fun c => c 0⟩ : Arr Nat) [3, 2] = .ok R ∧ R.shape = [2] :=
  ⟨_, rfl, rfl⟩

/-- An axis of length zero is not reduced to length one (against the documented claim). -/
theorem C07_shape_zero_length_counterexample :
    ∃ R, sumToShape (⟨[0], fun c => c 0⟩ : Arr Nat) [1] = .ok R ∧ R.shape = [0] :=
  ⟨_, rfl, rfl⟩

/-- A non-trivial instance. -/
example : ∃ R, sumToShape (⟨[4, 2, 3], fun c => c 0 + c 2⟩ : Arr Nat) [2, 1] = .ok R ∧
    R.shape = [2, 1] ∧ R.at (coord [1, 0]) = 30 := ⟨_, rfl, rfl, rfl⟩

/-! ### `repeat_to_shape` is the explicit broadcast -/

theorem flatR_append_ones (r : List Nat) (m : Nat) (c : Nat → Nat)
    (h : ∀ k, r.length ≤ k → c k = 0) : flatR (r ++ List.replicate m 1) c = flatR r c := by
  induction r generalizing c with
  | nil =>
    simp only [List.nil_append]
    induction m generalizing c with
    | zero => rfl
    | succ m ih =>
      rw [List.replicate_succ]
      show c 0 + 1 * flatR (List.replicate m 1) (fun k => c (k + 1)) = _
      rw [ih _ (fun k _ => h (k + 1) (by simp)), h 0 (by simp)]
      simp [flatR]
  | cons d r ih =>
    simp only [List.cons_append, flatR]
    rw [ih]
    intro k hk
    exact h (k + 1) (by simpa using hk)

theorem pad_reshape {α : Type _} (A : Arr α) (m : Nat) :
    ∃ Y, npReshape A (List.replicate m 1 ++ A.shape) = .ok Y ∧
      Y.shape = List.replicate m 1 ++ A.shape ∧
      ∀ c, ValidIn A.shape c → Y.get c = A.get c := by
  have h : ∃ Y, npReshape A (List.replicate m 1 ++ A.shape) = .ok Y := by
    unfold npReshape; rw [if_pos (by simp)]; exact ⟨_, rfl⟩
  obtain ⟨Y, h⟩ := h
  refine ⟨Y, h, (npReshape_get h).1, ?_⟩
  intro c hc
  apply (npReshape_get h).2 c c hc
  rw [List.reverse_append, List.reverse_replicate, flatR_append_ones]
  intro k hk
  have := hc k
  rw [axisLen_of_ge (by simpa using hk)] at this
  omega

theorem axisLen_pad (m : Nat) (s : List Nat) (k : Nat) :
    axisLen (List.replicate m 1 ++ s) k = axisLen s k := by
  unfold axisLen
  rw [List.reverse_append, List.reverse_replicate]
  by_cases h : k < s.length
  · rw [List.getElem?_append_left (by simpa using h)]
  · rw [List.getElem?_append_right (by simpa using h), List.getElem?_replicate,
      List.getElem?_eq_none (by simpa using h)]
    split <;> rfl

theorem axisLen_npRepeat {α : Type _} (A : Arr α) (n k i : Nat) (hk : k < A.shape.length) :
    axisLen (npRepeat A n k).shape i = if i = k then axisLen A.shape k * n else axisLen A.shape i := by
  have hl : (npRepeat A n k).shape.length = A.shape.length := by simp [npRepeat]
  by_cases hi : i < A.shape.length
  · have h1 := axisLen_eq_getElem (r := (npRepeat A n k).shape) (j := A.shape.length - 1 - i) (by omega)
    rw [show (npRepeat A n k).shape.length - 1 - (A.shape.length - 1 - i) = i by omega] at h1
    have h2 := axisLen_eq_getElem (r := A.shape) (j := A.shape.length - 1 - i) (by omega)
    rw [show A.shape.length - 1 - (A.shape.length - 1 - i) = i by omega] at h2
    rw [h1]
    simp only [npRepeat, List.getElem_mapIdx]
    rw [show A.shape.length - 1 - (A.shape.length - 1 - i) = i by omega]
    split
    · rename_i h; subst h; rw [h2]
    · rw [h2]
  · rw [if_neg (by omega), axisLen_of_ge (s := A.shape) (by omega),
      axisLen_of_ge (s := (npRepeat A n k).shape) (by omega)]

/-- `repeat_to_shape(A, s)` materialises the broadcast of `A` to shape `s`, and raises iff `A` cannot
be broadcast to `s`. -/
theorem C07_repeat_to_shape {α : Type} (A : Arr α) (s : List Nat) :
    (BroadcastsTo A.shape s → ∃ R, repeatToShape A s = .ok R ∧ R.shape = s ∧
      ∀ c, ValidIn s c → R.get c = A.at c) ∧
    (¬ BroadcastsTo A.shape s → repeatToShape A s = .error .exception) := by
  by_cases hl : A.shape.length ≤ s.length
  swap
  · constructor
    · intro h; exact absurd h.1 hl
    · intro _
      unfold repeatToShape
      simp only []
      rw [if_pos (by omega)]
      rfl
  obtain ⟨Y, hY1, hY2, hY3⟩ := pad_reshape A (s.length - A.shape.length)
  have hYl : (List.replicate (s.length - A.shape.length) 1 ++ A.shape).length = s.length := by
    simp; omega
  have hsD : ∀ k, k < s.length → s.getD (s.length - 1 - k) 0 = axisLen s k := by
    intro k hk
    rw [axisLen_getD (by omega), show s.length - 1 - (s.length - 1 - k) = k by omega]
  have htD : ∀ k, k < s.length → (List.replicate (s.length - A.shape.length) 1 ++ A.shape).getD
      (s.length - 1 - k) 0 = axisLen A.shape k := by
    intro k hk
    rw [axisLen_getD (by omega), hYl, axisLen_pad,
      show s.length - 1 - (s.length - 1 - k) = k by omega]
  constructor
  · intro hb
    have key : ∀ m, m ≤ s.length → ∃ R : Arr α, (List.range m).foldlM (fun (A' : Arr α) k => do
        let i := s.length - 1 - k
        if s.getD i 0 ≠ (List.replicate (s.length - A.shape.length) 1 ++ A.shape).getD i 0 then
          if (List.replicate (s.length - A.shape.length) 1 ++ A.shape).getD i 0 ≠ 1 then
            throw PyErr.exception
          else return npRepeat A' (s.getD i 0) k
        else return A') Y = (Except.ok R : Except PyErr (Arr α)) ∧ R.shape.length = s.length ∧
        (∀ k, axisLen R.shape k = if k < m then axisLen s k else axisLen A.shape k) ∧
        ∀ c, ValidIn R.shape c → R.get c = A.at c := by
      intro m
      induction m with
      | zero =>
        intro _
        refine ⟨Y, rfl, by rw [hY2, hYl], fun k => by simp [hY2, axisLen_pad], ?_⟩
        intro c hc
        have hv : ValidIn A.shape c := by
          intro k; have := hc k; rwa [hY2, axisLen_pad] at this
        rw [hY3 c hv, A.at_of_valid hv]
      | succ m ih =>
        intro hm
        obtain ⟨R, h1, h2, h3, h4⟩ := ih (by omega)
        rw [List.range_succ, List.foldlM_append, h1]
        simp only [List.foldlM_cons, List.foldlM_nil, bind, Except.bind, pure, Except.pure]
        rw [hsD m (by omega), htD m (by omega)]
        by_cases hne : axisLen s m = axisLen A.shape m
        · simp only [hne, ne_eq, not_true_eq_false, if_false]
          refine ⟨R, rfl, h2, ?_, h4⟩
          intro k
          rw [h3]
          by_cases hk : k = m
          · subst hk; simp [hne]
          · split <;> split <;> first | rfl | omega
        · have h5 : axisLen A.shape m = 1 := by have := hb.2 m; omega
          rw [if_pos hne, if_neg (by simpa using h5)]
          have hax : ∀ k, axisLen (npRepeat R (axisLen s m) m).shape k
              = if k < m + 1 then axisLen s k else axisLen A.shape k := by
            intro k
            rw [axisLen_npRepeat _ _ _ _ (by omega), h3, h3]
            by_cases hk : k = m
            · subst hk; simp [h5]
            · rw [if_neg hk]
              split <;> split <;> first | rfl | omega
          refine ⟨npRepeat R (axisLen s m) m, rfl, by simp [npRepeat, h2], hax, ?_⟩
          intro c hc
          show R.get (update c m (c m / axisLen s m)) = _
          have hcm := hc m
          rw [hax, if_pos (by omega)] at hcm
          rw [Nat.div_eq_of_lt hcm, h4, A.at_update h5]
          intro k
          have := hc k
          rw [hax] at this
          rw [h3]
          by_cases hk : k = m
          · subst hk; simp [h5]
          · rw [update_of_ne hk]
            split at this <;> split <;> first | assumption | omega
    obtain ⟨R, h1, h2, h3, h4⟩ := key s.length (le_refl _)
    have hs : R.shape = s := by
      apply axisLen_ext h2
      intro k
      rw [h3]
      split
      · rfl
      · rw [axisLen_of_ge (by omega), axisLen_of_ge (by omega)]
    refine ⟨R, ?_, hs, ?_⟩
    · unfold repeatToShape
      simp only []
      rw [if_neg (by omega)]
      simp only [hY1, bind, Except.bind]
      exact h1
    · intro c hc
      exact h4 c (by rw [hs]; exact hc)
  · intro hb
    unfold repeatToShape
    simp only []
    rw [if_neg (by omega)]
    simp only [hY1, bind, Except.bind]
    apply foldlM_error_of
    · intro R k e' hk h1
      simp only [pure, Except.pure] at h1
      split at h1
      · split at h1
        · cases h1; rfl
        · cases h1
      · cases h1
    · have : ∃ k, k < s.length ∧ axisLen A.shape k ≠ 1 ∧ axisLen A.shape k ≠ axisLen s k := by
        by_contra hc
        apply hb
        refine ⟨hl, fun k => ?_⟩
        by_contra h3
        simp only [not_or] at h3
        refine hc ⟨k, ?_, h3.1, h3.2⟩
        by_contra h4
        exact h3.1 (axisLen_of_ge (by omega))
      obtain ⟨k, hk, h1, h2⟩ := this
      refine ⟨k, by simpa using hk, fun R => ⟨.exception, ?_⟩⟩
      rw [hsD k hk, htD k hk, if_pos (fun h => h2 h.symm), if_pos h1]
      rfl

example : ∃ R, repeatToShape (⟨[2, 1], fun c => c 1⟩ : Arr Nat) [3, 2, 2] = .ok R ∧
    R.shape = [3, 2, 2] ∧ R.get (coord [2, 1, 0]) = 1 := ⟨_, rfl, rfl, rfl⟩
example : BroadcastsTo [2, 1] [3, 2, 2] := ⟨by simp, by
  intro k; rcases k with _ | _ | _ | k <;> simp [axisLen]⟩

end Verif
