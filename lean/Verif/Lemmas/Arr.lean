import Mathlib.Algebra.BigOperators.Ring.Finset
import Mathlib.Algebra.BigOperators.Group.Finset.Sigma
import Mathlib.Tactic.Ring
import Verif.Spec.Arr
import Verif.Model.Arr
import Verif.Lemmas.Shape

/-! # Helper lemmas: broadcast reads and nested sums -/

namespace Verif
open Spec Function

section at_
variable {α : Type _}

theorem Arr.at_congr (X : Arr α) {c c' : Nat → Nat}
    (h : ∀ k, axisLen X.shape k ≠ 1 → c k = c' k) : X.at c = X.at c' := by
  unfold Arr.at
  congr 1
  funext k
  unfold restrict
  split
  · rfl
  · exact h k ‹_›

theorem Arr.at_update (X : Arr α) {c : Nat → Nat} {j t : Nat} (h : axisLen X.shape j = 1) :
    X.at (update c j t) = X.at c := by
  apply X.at_congr
  intro k hk
  have : k ≠ j := by rintro rfl; exact hk h
  simp [update, this]

theorem restrict_restrict (s t : List Nat) (c : Nat → Nat)
    (h : ∀ k, axisLen t k = 1 → axisLen s k = 1) :
    restrict s (restrict t c) = restrict s c := by
  funext k
  unfold restrict
  by_cases h1 : axisLen s k = 1
  · simp [h1]
  · have : ¬ axisLen t k = 1 := fun h2 => h1 (h k h2)
    simp [h1, this]

theorem restrict_valid {s t : List Nat} (h : ∀ k, axisLen s k = 1 ∨ axisLen s k = axisLen t k)
    {c : Nat → Nat} (hc : ValidIn t c) : ValidIn s (restrict s c) := by
  intro k
  unfold restrict
  split
  · omega
  · have := h k
    have := hc k
    omega

theorem restrict_of_valid {s : List Nat} {c : Nat → Nat} (h : ValidIn s c) : restrict s c = c := by
  funext k
  unfold restrict
  split
  · have := h k; omega
  · rfl

theorem Arr.at_of_valid (X : Arr α) {c : Nat → Nat} (h : ValidIn X.shape c) : X.at c = X.get c := by
  unfold Arr.at; rw [restrict_of_valid h]

end at_

/-! ## Nested sums -/

section sums
variable {α : Type _}

theorem sumAxes_congr [AddCommMonoid α] (L : List (Nat × Nat)) {f g : (Nat → Nat) → α}
    {c : Nat → Nat} (h : ∀ c', (∀ k, k ∉ L.map (·.1) → c' k = c k) → f c' = g c') :
    sumAxes L f c = sumAxes L g c := by
  induction L generalizing c with
  | nil => exact h c (fun _ _ => rfl)
  | cons p L ih =>
    obtain ⟨j, d⟩ := p
    simp only [sumAxes]
    apply Finset.sum_congr rfl
    intro t _
    apply ih
    intro c' hc'
    apply h
    intro k hk
    simp at hk
    have := hc' k (by simpa using hk.2)
    simpa [update, hk.1] using this

/-- The base coordinate matters only off the summed axes. -/
theorem sumAxes_base [AddCommMonoid α] (L : List (Nat × Nat)) (f : (Nat → Nat) → α)
    {c c' : Nat → Nat} (h : ∀ k, k ∉ L.map (·.1) → c k = c' k) :
    sumAxes L f c = sumAxes L f c' := by
  induction L generalizing c c' with
  | nil => simp only [sumAxes]; congr 1; funext k; exact h k (by simp)
  | cons p L ih =>
    obtain ⟨j, d⟩ := p
    simp only [sumAxes]
    apply Finset.sum_congr rfl
    intro t _
    apply ih
    intro k hk
    by_cases hkj : k = j
    · subst hkj; simp
    · simp only [update, hkj]
      exact h k (by simpa [hkj] using hk)

/-- More general congruence: functions may be composed with different coordinate maps. -/
theorem sumAxes_congr' [AddCommMonoid α] (L : List (Nat × Nat)) (hnd : (L.map (·.1)).Nodup)
    {f g : (Nat → Nat) → α}
    {c : Nat → Nat} (h : ∀ c', (∀ k, k ∉ L.map (·.1) → c' k = c k) →
      (∀ p ∈ L, c' p.1 < p.2) → f c' = g c') :
    sumAxes L f c = sumAxes L g c := by
  induction L generalizing c with
  | nil => exact h c (fun _ _ => rfl) (by simp)
  | cons p L ih =>
    obtain ⟨j, d⟩ := p
    simp only [sumAxes]
    apply Finset.sum_congr rfl
    intro t ht
    simp only [List.map_cons, List.nodup_cons] at hnd
    apply ih hnd.2
    intro c' hc' hc''
    apply h
    · intro k hk
      simp at hk
      have := hc' k (by simpa using hk.2)
      simpa [update, hk.1] using this
    · intro p hp
      rcases List.mem_cons.1 hp with rfl | hp
      · have := hc' j hnd.1
        simp at this
        simpa [this] using ht
      · exact hc'' p hp

theorem sumAxes_append [AddCommMonoid α] (L M : List (Nat × Nat)) (f : (Nat → Nat) → α)
    (c : Nat → Nat) : sumAxes (L ++ M) f c = sumAxes L (sumAxes M f) c := by
  induction L generalizing c with
  | nil => rfl
  | cons p L ih =>
    obtain ⟨j, d⟩ := p
    simp only [List.cons_append, sumAxes, ih]

theorem sumAxes_perm [AddCommMonoid α] {L M : List (Nat × Nat)} (h : L.Perm M)
    (hnd : (L.map (·.1)).Nodup) (f : (Nat → Nat) → α) (c : Nat → Nat) :
    sumAxes L f c = sumAxes M f c := by
  induction h generalizing c with
  | nil => rfl
  | cons p _ ih =>
    obtain ⟨j, d⟩ := p
    simp only [List.map_cons, List.nodup_cons] at hnd
    simp only [sumAxes]
    exact Finset.sum_congr rfl fun t _ => ih hnd.2 _
  | swap p q L =>
    obtain ⟨j, d⟩ := p
    obtain ⟨k, e⟩ := q
    simp only [sumAxes]
    rw [Finset.sum_comm]
    simp at hnd
    have hjk : j ≠ k := fun h => hnd.1.1 h.symm
    simp only [update_comm hjk]
  | trans h1 h2 ih1 ih2 =>
    rw [ih1 hnd, ih2 ((h1.map _).nodup_iff.1 hnd)]

theorem sumAxes_const [CommSemiring α] (L : List (Nat × Nat)) (f : (Nat → Nat) → α)
    (c : Nat → Nat) (h : ∀ p ∈ L, ∀ c t, f (update c p.1 t) = f c) :
    sumAxes L f c = ((L.map (·.2)).prod : Nat) * f c := by
  induction L generalizing c with
  | nil => simp [sumAxes]
  | cons p L ih =>
    obtain ⟨j, d⟩ := p
    simp only [sumAxes]
    rw [Finset.sum_congr rfl fun t _ => ih (update c j t) (fun p hp => h p (by simp [hp]))]
    have : ∀ t, f (update c j t) = f c := fun t => h (j, d) (by simp) c t
    simp only [this]
    rw [Finset.sum_const, Finset.card_range]
    simp
    ring

theorem sumAxes_mul_left [CommSemiring α] (L : List (Nat × Nat)) (f g : (Nat → Nat) → α)
    (c : Nat → Nat) (h : ∀ p ∈ L, ∀ c t, g (update c p.1 t) = g c) :
    sumAxes L (fun c => g c * f c) c = g c * sumAxes L f c := by
  induction L generalizing c with
  | nil => simp [sumAxes]
  | cons p L ih =>
    obtain ⟨j, d⟩ := p
    simp only [sumAxes]
    rw [Finset.mul_sum]
    apply Finset.sum_congr rfl
    intro t _
    rw [ih _ (fun p hp => h p (by simp [hp])), h (j, d) (by simp)]

theorem sumAxes_mul_right [CommSemiring α] (L : List (Nat × Nat)) (f g : (Nat → Nat) → α)
    (c : Nat → Nat) (h : ∀ p ∈ L, ∀ c t, g (update c p.1 t) = g c) :
    sumAxes L (fun c => f c * g c) c = sumAxes L f c * g c := by
  simp only [mul_comm _ (g _)]
  rw [sumAxes_mul_left L f g c h]

/-- A nested sum does not depend on a coordinate outside if its summand does not. -/
theorem sumAxes_indep [AddCommMonoid α] (L : List (Nat × Nat)) (f : (Nat → Nat) → α) (j : Nat)
    (h : ∀ c t, f (update c j t) = f c) (c : Nat → Nat) (t : Nat) :
    sumAxes L f (update c j t) = sumAxes L f c := by
  induction L generalizing c with
  | nil => exact h c t
  | cons p L ih =>
    obtain ⟨k, d⟩ := p
    simp only [sumAxes]
    apply Finset.sum_congr rfl
    intro u _
    by_cases hjk : j = k
    · subst hjk; simp
    · rw [update_comm hjk t u c]; exact ih _

/-- Renaming the coordinates. -/
theorem sumAxes_rename [AddCommMonoid α] (L : List (Nat × Nat)) (f : (Nat → Nat) → α)
    (σ : Nat → Nat) (hσ : ∀ p ∈ L, ∀ k, σ k = σ p.1 → k = p.1) (c : Nat → Nat) :
    sumAxes (L.map fun p => (σ p.1, p.2)) (fun e => f (e ∘ σ)) c = sumAxes L f (c ∘ σ) := by
  induction L generalizing c with
  | nil => rfl
  | cons p L ih =>
    obtain ⟨j, d⟩ := p
    simp only [List.map_cons, sumAxes]
    apply Finset.sum_congr rfl
    intro t _
    rw [ih (fun p hp => hσ p (by simp [hp]))]
    congr 1
    funext k
    simp only [comp, update]
    by_cases h : k = j
    · subst h; simp
    · have : σ k ≠ σ j := fun h' => h (hσ (j, d) (by simp) k h')
      simp [h, this]

/-! ## Sums over all elements -/

theorem coord_cons (i : Nat) (l : List Nat) : coord (i :: l) = update (coord l) l.length i := by
  funext k
  unfold coord
  simp only [List.reverse_cons, List.getD_eq_getElem?_getD, update]
  split
  · rename_i h
    subst h
    rw [List.getElem?_append_right (by simp)]
    simp
  · rename_i h
    by_cases hk : k < l.length
    · rw [List.getElem?_append_left (by simpa using hk)]
    · rw [List.getElem?_eq_none (by simp; omega), List.getElem?_eq_none (by simp; omega)]

theorem length_of_mem_indices {s i : List Nat} (h : i ∈ indices s) : i.length = s.length := by
  induction s generalizing i with
  | nil => simp [indices] at h; simp [h]
  | cons d ds ih =>
    simp only [indices, List.mem_flatMap, List.mem_map] at h
    obtain ⟨t, _, l, hl, rfl⟩ := h
    simp [ih hl]

theorem sumOver_nil [AddCommMonoid α] (f : (Nat → Nat) → α) : sumOver [] f = f (fun _ => 0) := by
  simp only [sumOver, indices, List.map_cons, List.map_nil, List.sum_cons, List.sum_nil, add_zero]
  congr 1

theorem list_sum_flatMap_range [AddCommMonoid α] (d : Nat) (g : Nat → List α) :
    ((List.range d).flatMap g).sum = ∑ t ∈ Finset.range d, (g t).sum := by
  induction d with
  | zero => simp
  | succ d ih =>
    rw [List.range_succ, List.flatMap_append, List.sum_append, ih, Finset.sum_range_succ]
    simp

theorem sumOver_cons [AddCommMonoid α] (d : Nat) (ds : List Nat) (f : (Nat → Nat) → α) :
    sumOver (d :: ds) f
      = ∑ t ∈ Finset.range d, sumOver ds (fun c => f (update c ds.length t)) := by
  unfold sumOver
  simp only [indices, List.map_flatMap, List.map_map]
  rw [list_sum_flatMap_range]
  apply Finset.sum_congr rfl
  intro t _
  congr 1
  apply List.map_congr_left
  intro l hl
  simp only [Function.comp]
  rw [coord_cons, length_of_mem_indices hl]

theorem sumOver_congr [AddCommMonoid α] (s : List Nat) {f g : (Nat → Nat) → α}
    (h : ∀ i ∈ indices s, f (coord i) = g (coord i)) : sumOver s f = sumOver s g := by
  unfold sumOver
  congr 1
  exact List.map_congr_left h

theorem axisLen_cons (d : Nat) (ds : List Nat) (k : Nat) :
    axisLen (d :: ds) k = if k = ds.length then d else axisLen ds k := by
  unfold axisLen
  simp only [List.reverse_cons]
  split
  · rename_i h
    subst h
    rw [List.getElem?_append_right (by simp)]
    simp
  · rename_i h
    by_cases hk : k < ds.length
    · rw [List.getElem?_append_left (by simpa using hk)]
    · rw [List.getElem?_eq_none (by simp; omega), List.getElem?_eq_none (by simp; omega)]

theorem coord_valid {s i : List Nat} (h : i ∈ indices s) : ValidIn s (coord i) := by
  induction s generalizing i with
  | nil =>
    simp [indices] at h
    subst h
    intro k
    simp [coord, axisLen]
  | cons d ds ih =>
    simp only [indices, List.mem_flatMap, List.mem_map, List.mem_range] at h
    obtain ⟨t, ht, l, hl, rfl⟩ := h
    intro k
    have hlen := length_of_mem_indices hl
    rw [coord_cons, axisLen_cons, hlen]
    unfold update
    split
    · rename_i hk; simpa [hk] using ht
    · exact ih hl k

/-- Every valid coordinate is the coordinate of a multi-index. -/
theorem exists_index_of_valid {s : List Nat} {c : Nat → Nat} (h : ValidIn s c) :
    ∃ i ∈ indices s, coord i = c := by
  induction s generalizing c with
  | nil =>
    refine ⟨[], by simp [indices], ?_⟩
    funext k
    have := h k
    simp [axisLen] at this
    simp [coord, this]
  | cons d ds ih =>
    have h1 : ValidIn ds (update c ds.length 0) := by
      intro k
      have := h k
      rw [axisLen_cons] at this
      unfold update
      split
      · subst_vars; rw [axisLen_of_ge (Nat.le_refl _)]; simp
      · simp_all
    obtain ⟨i, hi, hic⟩ := ih h1
    have hd : c ds.length < d := by
      have := h ds.length
      rw [axisLen_cons] at this
      simpa using this
    refine ⟨c ds.length :: i, ?_, ?_⟩
    · simp only [indices, List.mem_flatMap, List.mem_map, List.mem_range]
      exact ⟨_, hd, i, hi, rfl⟩
    · rw [coord_cons, hic, length_of_mem_indices hi]
      simp

/-- The positions (from the right) of the axes of `s` selected by `p`, with their lengths. -/
def selAxes (s : List Nat) (p : Nat → Bool) : List (Nat × Nat) :=
  ((List.range s.length).filter p).map fun k => (k, axisLen s k)

theorem selAxes_keys (s : List Nat) (p : Nat → Bool) :
    (selAxes s p).map (·.1) = (List.range s.length).filter p := by
  simp [selAxes, List.map_map, Function.comp_def]

theorem selAxes_nodup (s : List Nat) (p : Nat → Bool) : ((selAxes s p).map (·.1)).Nodup := by
  rw [selAxes_keys]
  exact (List.nodup_range).filter _

theorem selAxes_cons_perm (d : Nat) (ds : List Nat) (p : Nat → Bool) :
    selAxes (d :: ds) p
      = selAxes ds p ++ (if p ds.length then [(ds.length, d)] else []) := by
  unfold selAxes
  simp only [List.length_cons, List.range_succ, List.filter_append, List.map_append]
  congr 1
  · apply List.map_congr_left
    intro k hk
    simp at hk
    rw [axisLen_cons, if_neg (by omega)]
  · by_cases h : p ds.length
    · simp [h, axisLen_cons]
    · simp [h]

open Classical in
/-- Summing over the elements that agree with `idx` on the axes not selected by `p` is summing over
the selected axes, starting at `idx`. -/
theorem sumOver_ite [AddCommMonoid α] (s : List Nat) (p : Nat → Bool) (f : (Nat → Nat) → α)
    (idx : Nat → Nat) (hidx : ∀ k, k < s.length → p k = false → idx k < axisLen s k) :
    sumOver s (fun c => if ∀ k, k < s.length → p k = true ∨ c k = idx k then f c else 0)
      = sumAxes (selAxes s p) f (fun k => if k < s.length then idx k else 0) := by
  induction s generalizing f with
  | nil =>
    rw [sumOver_nil]
    simp [selAxes, sumAxes]
  | cons d ds ih =>
    have hidx' : ∀ k, k < ds.length → p k = false → idx k < axisLen ds k := by
      intro k hk hp
      have := hidx k (by simp; omega) hp
      rwa [axisLen_cons, if_neg (by omega)] at this
    rw [sumOver_cons, selAxes_cons_perm]
    by_cases hp : p ds.length = true
    · have hc : ∀ c t, (∀ k, k < (d :: ds).length → p k = true ∨ update c ds.length t k = idx k) ↔
          (∀ k, k < ds.length → p k = true ∨ c k = idx k) := by
        intro c t
        constructor
        · intro h k hk
          have := h k (by simp; omega)
          rwa [update_of_ne (by omega)] at this
        · intro h k hk
          by_cases hk2 : k = ds.length
          · subst hk2; exact .inl hp
          · rw [update_of_ne hk2]; exact h k (by simp at hk; omega)
      simp only [hc]
      simp only [fun t => ih (fun c => f (update c ds.length t)) hidx']
      simp only [hp, if_true]
      have hnd : ((selAxes ds p ++ [(ds.length, d)]).map (·.1)).Nodup := by
        have := selAxes_nodup (d :: ds) p
        rw [selAxes_cons_perm] at this
        simpa [hp] using this
      rw [sumAxes_perm (List.perm_append_comm) hnd]
      simp only [List.singleton_append, sumAxes]
      apply Finset.sum_congr rfl
      intro t _
      have e1 : sumAxes (selAxes ds p) (fun c => f (update c ds.length t))
          (fun k => if k < ds.length then idx k else 0)
          = sumAxes (selAxes ds p) (fun c => f (update c ds.length t))
            (update (fun k => if k < (d :: ds).length then idx k else 0) ds.length t) := by
        have hind := sumAxes_indep (selAxes ds p) (fun c => f (update c ds.length t)) ds.length
          (by intro c u; simp)
        rw [← hind (fun k => if k < ds.length then idx k else 0) t]
        congr 1
        funext k
        by_cases hk : k = ds.length
        · subst hk; simp
        · simp only [update_of_ne hk, List.length_cons]
          by_cases hk2 : k < ds.length
          · simp [hk2, Nat.lt_succ_of_lt hk2]
          · have : ¬ k < ds.length + 1 := by omega
            simp [hk2, this]
      rw [e1]
      apply sumAxes_congr
      intro c' hc'
      have := hc' ds.length (by rw [selAxes_keys]; simp)
      simp at this
      congr 1
      rw [← this]
      exact update_eq_self _ _
    · have hp' : p ds.length = false := by simpa using hp
      have hlt : idx ds.length < d := by
        have := hidx ds.length (by simp) hp'
        rwa [axisLen_cons, if_pos rfl] at this
      have hc : ∀ c t, (∀ k, k < (d :: ds).length → p k = true ∨ update c ds.length t k = idx k) ↔
          (t = idx ds.length ∧ ∀ k, k < ds.length → p k = true ∨ c k = idx k) := by
        intro c t
        constructor
        · intro h
          refine ⟨?_, fun k hk => ?_⟩
          · have := h ds.length (by simp)
            simpa [hp'] using this
          · have := h k (by simp; omega)
            rwa [update_of_ne (by omega)] at this
        · rintro ⟨rfl, h⟩ k hk
          by_cases hk2 : k = ds.length
          · subst hk2; simp
          · rw [update_of_ne hk2]; exact h k (by simp at hk; omega)
      simp only [hc, hp']
      rw [Finset.sum_eq_single (idx ds.length)]
      · simp only [true_and]
        rw [ih (fun c => f (update c ds.length (idx ds.length))) hidx']
        simp only [Bool.false_eq_true, if_false, List.append_nil]
        have hind := sumAxes_indep (selAxes ds p)
          (fun c => f (update c ds.length (idx ds.length))) ds.length (by intro c u; simp)
        rw [← hind (fun k => if k < ds.length then idx k else 0) (idx ds.length)]
        have e2 : update (fun k => if k < ds.length then idx k else 0) ds.length (idx ds.length)
            = (fun k => if k < (d :: ds).length then idx k else 0) := by
          funext k
          by_cases hk : k = ds.length
          · subst hk; simp
          · simp only [update_of_ne hk, List.length_cons]
            by_cases hk2 : k < ds.length
            · simp [hk2, Nat.lt_succ_of_lt hk2]
            · have : ¬ k < ds.length + 1 := by omega
              simp [hk2, this]
        rw [e2]
        apply sumAxes_congr
        intro c' hc'
        have := hc' ds.length (by rw [selAxes_keys]; simp)
        simp at this
        congr 1
        rw [← this]
        exact update_eq_self _ _
      · intro t _ ht
        unfold sumOver
        simp [ht]
      · intro h
        exact absurd (Finset.mem_range.2 hlt) h

end sums

end Verif
