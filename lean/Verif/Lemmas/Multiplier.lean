import Verif.Lemmas.ToPlates

/-! # Helper lemmas: the plate multiplier -/

namespace Verif
open Spec Function

theorem mem_selAxes {s : List Nat} {p : Nat → Bool} {i d : Nat} :
    (i, d) ∈ selAxes s p ↔ i < s.length ∧ p i = true ∧ d = axisLen s i := by
  unfold selAxes
  simp only [List.mem_map, List.mem_filter, List.mem_range, Prod.mk.injEq]
  constructor
  · rintro ⟨k, ⟨h1, h2⟩, rfl, rfl⟩; exact ⟨h1, h2, rfl⟩
  · rintro ⟨h1, h2, rfl⟩; exact ⟨i, ⟨h1, h2⟩, rfl, rfl⟩

theorem sumOver_eq_sumAxes {α : Type _} [AddCommMonoid α] (s : List Nat) (f : (Nat → Nat) → α) :
    sumOver s f = sumAxes (selAxes s fun _ => true) f (fun _ => 0) := by
  have h := sumOver_ite s (fun _ => true) f (fun _ => 0) (by simp)
  simp only [true_or, implies_true, if_true] at h
  rw [h]
  congr 1
  funext k
  split <;> rfl

/-- Splitting the selected axes into those satisfying `q` and the others. -/
theorem selAxes_split_perm (s : List Nat) (p q : Nat → Bool) :
    (selAxes s p).Perm (selAxes s (fun k => p k && q k) ++ selAxes s (fun k => p k && !q k)) := by
  rw [List.perm_ext_iff_of_nodup (selAxes_nodup _ _).of_map]
  · rintro ⟨i, d⟩
    simp only [List.mem_append, mem_selAxes, Bool.and_eq_true, Bool.not_eq_true']
    cases q i <;> simp
  · rw [List.nodup_append]
    refine ⟨(selAxes_nodup _ _).of_map, (selAxes_nodup _ _).of_map, ?_⟩
    rintro ⟨i, d⟩ h1 ⟨i', d'⟩ h2 he
    cases he
    rw [mem_selAxes] at h1 h2
    simp at h1 h2
    simp_all

theorem sumAxes_shift {α : Type _} [AddCommMonoid α] (n : Nat) (idx : Nat → Nat)
    (L : List (Nat × Nat)) (F : (Nat → Nat) → α) (c : Nat → Nat) :
    sumAxes L (fun c => F (fun i => if i < n then idx i else c (i - n))) c
      = sumAxes (L.map fun p => (p.1 + n, p.2)) F (fun i => if i < n then idx i else c (i - n)) := by
  induction L generalizing c with
  | nil => rfl
  | cons p L ih =>
    obtain ⟨j, d⟩ := p
    simp only [List.map_cons, sumAxes]
    apply Finset.sum_congr rfl
    intro t _
    rw [ih]
    congr 1
    funext i
    by_cases h : i < n
    · simp only [h, if_true]
      rw [update_of_ne (by omega)]
      simp [h]
    · simp only [h, if_false]
      by_cases hj : i = j + n
      · subst hj; simp
      · rw [update_of_ne hj, update_of_ne (by omega)]
        simp [h]

/-- Multiplying by the lengths of the axes which the summand ignores. -/
theorem multiplier_sum {α : Type _} [CommSemiring α] (n : Nat) (src : List Nat)
    (p q : Nat → Bool) (F : (Nat → Nat) → α)
    (hF : ∀ j, j < src.length → p j = true → q j = true → ∀ c t, F (update c (j + n) t) = F c)
    (c : Nat → Nat) :
    ((((selAxes src (fun k => p k && q k)).map (·.2)).prod : Nat) : α) *
      sumAxes ((selAxes src (fun k => p k && !q k)).map fun a => (a.1 + n, a.2)) F c
      = sumAxes ((selAxes src p).map fun a => (a.1 + n, a.2)) F c := by
  have hperm := (selAxes_split_perm src p q).map (fun a : Nat × Nat => (a.1 + n, a.2))
  have hnd : (((selAxes src p).map fun a : Nat × Nat => (a.1 + n, a.2)).map (·.1)).Nodup := by
    rw [List.map_map]
    have : ((fun p : Nat × Nat => p.1) ∘ fun p : Nat × Nat => (p.1 + n, p.2))
        = (· + n) ∘ (fun p : Nat × Nat => p.1) := by funext p; rfl
    rw [this, ← List.map_map]
    apply List.Nodup.map
    · intro a b h; simpa using h
    · exact selAxes_nodup _ _
  rw [sumAxes_perm hperm hnd, List.map_append, sumAxes_append,
    sumAxes_const ((selAxes src fun k => p k && q k).map fun a => (a.1 + n, a.2))]
  · rw [List.map_map]; rfl
  · rintro ⟨i, d⟩ hi c t
    rw [List.mem_map] at hi
    obtain ⟨⟨j, e⟩, hj, he⟩ := hi
    simp only [Prod.mk.injEq] at he
    obtain ⟨rfl, rfl⟩ := he
    rw [mem_selAxes] at hj
    simp only [Bool.and_eq_true] at hj
    apply sumAxes_indep
    intro c t
    exact hF j hj.1 hj.2.1.1 hj.2.1.2 c t

theorem sumMultiplyToPlates_some_ok {α : Type} [CommSemiring α] {args : List (Arr α)}
    {B tgt src : List Nat} {n : Nat} (hne : args ≠ []) (hB : IsBroadcast (args.map (·.shape)) B)
    (hP : BroadcastsTo (getPlates n B) src) (hT : BroadcastsTo tgt src) :
    ∃ y, sumMultiplyToPlates args tgt (some src) n = .ok y ∧
      y.shape.length = min B.length (tgt.length + n) ∧
      (∀ i, axisLen y.shape i =
        if n ≤ i ∧ axisLen tgt (i - n) = 1 then 1 else axisLen B i) ∧
      ∀ c, (∀ i, axisLen y.shape i = 1 ∨ c i < axisLen y.shape i) →
        y.at c = sumAxes ((selAxes src (fun j => decide (axisLen tgt j = 1))).map
          fun p => (p.1 + n, p.2)) (prodAt args) c := by
  have hC : CollapsesTo (getPlates n B) tgt := by
    intro k
    have := hP.2 k
    have := hT.2 k
    omega
  obtain ⟨y, h1, h2, h3, h4⟩ := sumToPlatesCore_ok hne hB hC
  have hargs : ∀ a ∈ [getPlates n B, tgt], BroadcastsTo a src := by
    intro a ha; simp at ha; rcases ha with rfl | rfl <;> assumption
  refine ⟨npScale (((selAxes src (fun k => decide (∀ a ∈ [getPlates n B, tgt],
    axisLen a k = 1))).map (·.2)).prod) y, by
    unfold sumMultiplyToPlates
    simp only [(broadcastedShape_ok _ _).2 (isBroadcast_getPlates n hB), bind, Except.bind,
      broadcastingMultiplier_ok hargs, h1, pure, Except.pure], h2, h3, ?_⟩
  intro c hc
  show (_ : α) * y.at c = _
  rw [h4 c hc]
  have := multiplier_sum n src (fun j => decide (axisLen tgt j = 1))
    (fun j => decide (axisLen (getPlates n B) j = 1)) (prodAt args) (by
      intro j _ _ hq c t
      simp only [decide_eq_true_eq, axisLen_getPlates] at hq
      apply prodAt_congr hB
      intro k hk
      rw [update_of_ne]
      rintro rfl
      exact hk hq) c
  rw [← this]
  congr 1
  · congr 3
    unfold selAxes
    congr 1
    apply List.filter_congr
    intro k _
    rw [Bool.eq_iff_iff]
    simp only [List.mem_cons, List.not_mem_nil, or_false, forall_eq_or_imp, forall_eq,
      decide_eq_true_eq, Bool.and_eq_true]
    tauto
  · apply sumAxes_perm _ (nodup_coreAxes _ _ _)
    rw [List.perm_ext_iff_of_nodup (nodup_coreAxes _ _ _).of_map]
    · rintro ⟨i, d⟩
      rw [mem_coreAxes, List.mem_map]
      constructor
      · rintro ⟨h1, h2, h3, rfl⟩
        have hb := hP.2 (i - n)
        rw [axisLen_getPlates, Nat.sub_add_cancel h1] at hb
        refine ⟨(i - n, axisLen B i), ?_, by simp; omega⟩
        rw [mem_selAxes]
        refine ⟨?_, ?_, by omega⟩
        · by_contra hcon
          have := axisLen_of_ge (s := src) (k := i - n) (by omega)
          omega
        · simp [h2, axisLen_getPlates, Nat.sub_add_cancel h1, h3]
      · rintro ⟨⟨j, e⟩, hj, he⟩
        simp only [Prod.mk.injEq] at he
        obtain ⟨rfl, rfl⟩ := he
        rw [mem_selAxes] at hj
        simp [axisLen_getPlates] at hj
        have hb := hP.2 j
        rw [axisLen_getPlates] at hb
        exact ⟨by omega, by simpa using hj.2.1.1, hj.2.1.2, by omega⟩
    · apply List.Nodup.map
      · rintro ⟨a, b⟩ ⟨a', b'⟩ h
        simp at h
        simp [h]
      · exact (selAxes_nodup _ _).of_map

theorem sumMultiplyToPlates_none {α : Type} [CommSemiring α] {args : List (Arr α)}
    {B tgt S : List Nat} {n : Nat} (hB : IsBroadcast (args.map (·.shape)) B)
    (hS : IsBroadcast [getPlates n B, tgt] S) :
    sumMultiplyToPlates args tgt none n = sumMultiplyToPlates args tgt (some S) n := by
  have hargs : ∀ a ∈ [getPlates n B, tgt], BroadcastsTo a S := fun a ha =>
    ⟨hS.rank_ge a ha, fun k => hS.fits k a ha⟩
  unfold sumMultiplyToPlates
  simp only [(broadcastedShape_ok _ _).2 (isBroadcast_getPlates n hB), bind, Except.bind,
      broadcastingMultiplier_ok hargs, pure, Except.pure]
  have : (((selAxes S (fun k => decide (∀ a ∈ [getPlates n B, tgt], axisLen a k = 1))).map
      (·.2)).prod) = 1 := by
    apply List.prod_eq_one
    intro d hd
    rw [List.mem_map] at hd
    obtain ⟨⟨i, e⟩, hi, rfl⟩ := hd
    rw [mem_selAxes] at hi
    obtain ⟨_, h2, rfl⟩ := hi
    simp only [decide_eq_true_eq] at h2
    rcases hS.attained i with h | ⟨s, hs, h⟩
    · exact h
    · rw [← h]; exact h2 s hs
  rw [this]

end Verif
