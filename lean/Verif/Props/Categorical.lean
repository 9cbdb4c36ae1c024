import Mathlib.Algebra.BigOperators.Group.List.Basic
import Verif.Model.Categorical
import Verif.Model.ExpFamily
import Verif.Lemmas.Reshape
import Verif.Lemmas.Message

/-!
# C26: categorical observations become one-hot moments or are rejected
-/

namespace Verif
open Spec

theorem npAnyOf_iff {β : Type} {x : Arr β} {p : β → Bool} :
    npAnyOf x p = true ↔ ∃ c, ValidIn x.shape c ∧ p (x.get c) = true := by
  unfold npAnyOf
  rw [List.any_eq_true]
  constructor
  · rintro ⟨i, hi, h⟩
    exact ⟨coord i, coord_valid hi, h⟩
  · rintro ⟨c, hc, h⟩
    obtain ⟨i, hi, rfl⟩ := exists_index_of_valid hc
    exact ⟨i, hi, h⟩

theorem sum_range_single {α : Type} [AddCommMonoidWithOne α] (K m : Nat) :
    ((List.range K).map fun k => if k = m then (1 : α) else 0).sum = if m < K then 1 else 0 := by
  induction K with
  | zero => rfl
  | succ K ih =>
    rw [List.range_succ, List.map_append, List.sum_append, ih]
    simp only [List.map_cons, List.map_nil, List.sum_cons, List.sum_nil, add_zero]
    by_cases h : m < K
    · rw [if_pos h, if_neg (show ¬ K = m by omega), if_pos (show m < K + 1 by omega), add_zero]
    · rw [if_neg h, zero_add]
      by_cases h' : K = m
      · rw [if_pos h', if_pos (show m < K + 1 by omega)]
      · rw [if_neg h', if_neg (show ¬ m < K + 1 by omega)]

/-- All elements are valid categories. -/
def ValidCategories (K : Nat) (x : Arr Int) : Prop := ∀ c, ValidIn x.shape c → 0 ≤ x.get c ∧ x.get c < K

theorem outOfRange_int {K : Nat} {x : Arr Int} : (PyArr.int x).outOfRange K = true ↔ ¬ ValidCategories K x := by
  show (npAnyOf x _ || npAnyOf x _) = true ↔ _
  rw [Bool.or_eq_true, npAnyOf_iff, npAnyOf_iff]
  unfold ValidCategories
  constructor
  · rintro (⟨c, hc, h⟩ | ⟨c, hc, h⟩) hv
    · have := hv c hc
      simp at h
      omega
    · have := hv c hc
      simp at h
      omega
  · intro h
    simp only [not_forall, not_and_or, not_le, not_lt] at h
    obtain ⟨c, hc, h⟩ := h
    rcases h with h | h
    · exact .inl ⟨c, hc, by simpa using h⟩
    · exact .inr ⟨c, hc, by simpa using h⟩

/-- **C26** (one-hot) For every array of valid categories, the moments have one more axis, with one at the observed
category and zero elsewhere. -/
theorem C26_one_hot {α : Type} [AddCommMonoidWithOne α] (K : Nat) (x : Arr Int) (hx : ValidCategories K x) :
    ∃ u : Arr α, categoricalFixed α K (.int x) = .ok u ∧ u.shape = x.shape ++ [K] ∧
      (∀ p, ValidIn x.shape p → ∀ k < K, u.get (joinC 1 (fun _ => k) p) = if (k : Int) = x.get p then 1 else 0) ∧
      ∀ p, ValidIn x.shape p → ((List.range K).map fun k => u.get (joinC 1 (fun _ => k) p)).sum = 1 := by
  have hr : (PyArr.int x).outOfRange K = false := by
    rw [← Bool.not_eq_true, outOfRange_int, not_not]; exact hx
  have hlen : (npRavel x).length = x.shape.prod := by simp [npRavel]
  set ps := (List.range x.shape.prod).zip ((npRavel x).map Int.toNat) with hps
  set u0 : Arr α := { shape := [x.shape.prod, K], get := fun c => if (c 1, c 0) ∈ ps then 1 else 0 } with hu0
  have hset : npSetOnes (zerosMat x.shape.prod K : Arr α) (List.range x.shape.prod) ((npRavel x).map Int.toNat) =
      .ok u0 := by
    unfold npSetOnes pairIndices
    rw [if_pos (by simp [hlen])]
    rfl
  have hprod : (x.shape ++ [K]).prod = u0.shape.prod := by simp [hu0]
  have hre : ∃ u, npReshape u0 (x.shape ++ [K]) = .ok u := by
    unfold npReshape
    rw [if_pos hprod]
    exact ⟨_, rfl⟩
  obtain ⟨u, hu⟩ := hre
  obtain ⟨hsh, hget⟩ := npReshape_get hu
  have hone : ∀ p, ValidIn x.shape p → ∀ k < K,
      u.get (joinC 1 (fun _ => k) p) = if (k : Int) = x.get p then 1 else 0 := by
    intro p hp k hk
    have hflt := flatR_lt ((validIn_iff _ _).1 hp)
    rw [List.prod_reverse] at hflt
    let c' : Nat → Nat := fun j => match j with
      | 0 => k
      | 1 => flatR x.shape.reverse p
      | _ => 0
    rw [hget _ c' (by
      intro j
      rcases j with _ | _ | j
      · exact hk
      · exact hflt
      · exact Nat.zero_lt_one) (by
      rw [List.reverse_append]
      show k + K * flatR x.shape.reverse (fun j => joinC 1 (fun _ => k) p (j + 1)) =
        k + K * (flatR x.shape.reverse p + x.shape.prod * 0)
      rw [Nat.mul_zero, Nat.add_zero]
      rfl)]
    show (if (flatR x.shape.reverse p, k) ∈ ps then (1 : α) else 0) = _
    have hmem : (flatR x.shape.reverse p, k) ∈ ps ↔ (k : Int) = x.get p := by
      have hval : (npRavel x)[flatR x.shape.reverse p]? = some (x.get p) := by
        unfold npRavel
        rw [List.getElem?_map, List.getElem?_range hflt, Option.map_some, unflatR_flatR ((validIn_iff _ _).1 hp)]
      have hnn := (hx p hp).1
      constructor
      · intro h
        obtain ⟨i, hi⟩ := List.getElem?_of_mem h
        rw [hps, List.getElem?_zip_eq_some, List.getElem?_range] at hi
        · have hi1 : i = flatR x.shape.reverse p := by simpa using hi.1
          subst hi1
          rw [List.getElem?_map, hval] at hi
          simp only [Option.map_some, Option.some.injEq] at hi
          omega
        · by_contra hge
          rw [List.getElem?_eq_none (by simpa using hge)] at hi
          cases hi.1
      · intro h
        apply List.mem_of_getElem? (i := flatR x.shape.reverse p)
        rw [hps, List.getElem?_zip_eq_some, List.getElem?_range hflt, List.getElem?_map, hval]
        refine ⟨rfl, ?_⟩
        simp only [Option.map_some, Option.some.injEq]
        omega
    by_cases h : (k : Int) = x.get p
    · rw [if_pos h, if_pos (hmem.2 h)]
    · rw [if_neg h, if_neg (fun h' => h (hmem.1 h'))]
  refine ⟨u, ?_, hsh, hone, fun p hp => ?_⟩
  · unfold categoricalFixed
    rw [if_neg (by simp [PyArr.isInteger]), if_neg (by simp [hr])]
    simp only [columnIndices, bind, Except.bind]
    rw [show (PyArr.int x).shape = x.shape from rfl, hset]
    exact hu
  · obtain ⟨h0, hK⟩ := hx p hp
    have h1 : ((List.range K).map fun k => u.get (joinC 1 (fun _ => k) p)) =
        (List.range K).map fun k => if k = (x.get p).toNat then (1 : α) else 0 := by
      apply List.map_congr_left
      intro k hk
      rw [hone p hp k (List.mem_range.1 hk)]
      by_cases h : (k : Int) = x.get p
      · rw [if_pos h, if_pos (by omega)]
      · rw [if_neg h, if_neg (by omega)]
    rw [h1]
    have hlt : (x.get p).toNat < K := by omega
    rw [sum_range_single, if_pos hlt]

/-- **C26** (rejected) Values that are not integers (nor booleans), and arrays with some negative value or some value
`≥ K`, raise `ValueError`. -/
theorem C26_rejected (α : Type) [Zero α] [One α] (K : Nat) :
    (∀ s, categoricalFixed α K (.other s) = .error .valueError) ∧
    ∀ x, ¬ ValidCategories K x → categoricalFixed α K (.int x) = .error .valueError := by
  refine ⟨fun s => rfl, fun x hx => ?_⟩
  unfold categoricalFixed
  rw [if_neg (by simp [PyArr.isInteger]), if_pos (outOfRange_int.2 hx)]
  rfl

/-- The array `[[2, 0], [1, 2]]` of categories out of 3 is accepted. -/
example : ValidCategories 3 (Arr.mk [2, 2] fun c => if c 1 = 0 then (if c 0 = 0 then 2 else 0) else (1 + c 0 : Int)) := by
  intro c hc
  have h0 : c 0 < 2 := hc 0
  show 0 ≤ (if c 1 = 0 then (if c 0 = 0 then 2 else 0) else (1 + c 0 : Int)) ∧ (if c 1 = 0 then (if c 0 = 0 then 2 else 0) else (1 + c 0 : Int)) < 3
  split
  · split <;> decide
  · omega

example : ¬ ValidCategories 3 (Arr.mk [2] fun c => (2 + c 0 : Int)) := by
  intro h
  have := h (fun k => if k = 0 then 1 else 0) (by
    intro k
    rcases k with _ | k
    · decide
    · simp [axisLen])
  revert this
  decide

/-- The moments as a list, for the witnesses below. -/
def exMoments (K : Nat) (x : PyArr) : Except PyErr (List Nat × List ℤ) :=
  match categoricalFixed ℤ K x with
  | .error e => .error e
  | .ok u => .ok (u.shape, npRavel u)

example : exMoments 3 (.int (Arr.mk [2] fun c => (2 * c 0 : Int))) = .ok ([2, 3], [1, 0, 0, 0, 0, 1]) := by decide +kernel

/-- **C26** (what is not true) Booleans count as integers for the check, but not for the assignment, where numpy
takes them for a mask of the columns.  With two categories, observing `[False, True]` gives category one for both
elements; with one category, observing `False` gives moments that sum to zero.  Other numbers of elements raise
`IndexError`. -/
theorem C26_boolean_refuted :
    exMoments 2 (.bool (Arr.mk [2] fun c => c 0 == 1)) = .ok ([2, 2], [0, 1, 0, 1]) ∧
    exMoments 1 (.bool (Arr.mk [] fun _ => false)) = .ok ([1], [0]) ∧
    exMoments 2 (.bool (Arr.mk [3] fun c => c 0 == 1)) = .error .indexError := by
  refine ⟨?_, ?_, ?_⟩ <;> decide +kernel

end Verif
