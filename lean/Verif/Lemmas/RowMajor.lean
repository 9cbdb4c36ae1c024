import Verif.Spec.RowMajor
import Verif.Lemmas.Reshape
import Verif.Lemmas.Arr

/-! # Helper lemmas: positions of multi-indices -/

namespace Verif
open Spec

theorem mem_indices_nil {i : List Nat} : i ∈ indices [] ↔ i = [] := by simp [indices]

theorem mem_indices_cons {d : Nat} {ds : List Nat} {a : Nat} {i : List Nat} :
    a :: i ∈ indices (d :: ds) ↔ a < d ∧ i ∈ indices ds := by
  simp [indices]

theorem mem_indices_cons' {d : Nat} {ds i : List Nat} :
    i ∈ indices (d :: ds) ↔ ∃ a j, i = a :: j ∧ a < d ∧ j ∈ indices ds := by
  constructor
  · intro h
    rcases i with _ | ⟨a, j⟩
    · simp [indices] at h
    · exact ⟨a, j, rfl, mem_indices_cons.1 h⟩
  · rintro ⟨a, j, rfl, h⟩
    exact mem_indices_cons.2 h

theorem append_mem_indices {s t i j : List Nat} (hi : i ∈ indices s) (hj : j ∈ indices t) : i ++ j ∈ indices (s ++ t) := by
  induction s generalizing i with
  | nil => rw [mem_indices_nil.1 hi]; exact hj
  | cons d ds ih =>
    obtain ⟨a, k, rfl, h1, h2⟩ := mem_indices_cons'.1 hi
    exact mem_indices_cons.2 ⟨h1, ih h2⟩

theorem rowMajor_lt {s i : List Nat} (h : i ∈ indices s) : rowMajor s i < s.prod := by
  induction s generalizing i with
  | nil => simp [rowMajor, mem_indices_nil.1 h]
  | cons d ds ih =>
    obtain ⟨a, k, rfl, h1, h2⟩ := mem_indices_cons'.1 h
    have := ih h2
    rw [rowMajor, List.prod_cons]
    calc a * ds.prod + rowMajor ds k < a * ds.prod + ds.prod := by omega
      _ = (a + 1) * ds.prod := by ring
      _ ≤ d * ds.prod := Nat.mul_le_mul_right _ h1

theorem rowMajor_inj {s i j : List Nat} (hi : i ∈ indices s) (hj : j ∈ indices s) (h : rowMajor s i = rowMajor s j) :
    i = j := by
  induction s generalizing i j with
  | nil => rw [mem_indices_nil.1 hi, mem_indices_nil.1 hj]
  | cons d ds ih =>
    obtain ⟨a, k, rfl, h1, h2⟩ := mem_indices_cons'.1 hi
    obtain ⟨b, l, rfl, h3, h4⟩ := mem_indices_cons'.1 hj
    rw [rowMajor, rowMajor] at h
    have hk := rowMajor_lt h2
    have hl := rowMajor_lt h4
    have hp : 0 < ds.prod := by omega
    have e1 : (a * ds.prod + rowMajor ds k) / ds.prod = a := by
      rw [mul_comm, Nat.mul_add_div hp, Nat.div_eq_of_lt hk, add_zero]
    have e2 : (b * ds.prod + rowMajor ds l) / ds.prod = b := by
      rw [mul_comm, Nat.mul_add_div hp, Nat.div_eq_of_lt hl, add_zero]
    have e : a = b := by rw [← e1, h, e2]
    subst e
    rw [ih h2 h4 (by omega)]

theorem rowMajor_surj {s : List Nat} {n : Nat} (h : n < s.prod) : ∃ i ∈ indices s, rowMajor s i = n := by
  induction s generalizing n with
  | nil => exact ⟨[], by simp [indices], by simp at h; simp [rowMajor, h]⟩
  | cons d ds ih =>
    rw [List.prod_cons] at h
    have hp : 0 < ds.prod := by
      rcases Nat.eq_zero_or_pos ds.prod with e | e
      · rw [e] at h; simp at h
      · exact e
    obtain ⟨i, h1, h2⟩ := ih (Nat.mod_lt n hp)
    refine ⟨n / ds.prod :: i, mem_indices_cons.2 ⟨Nat.div_lt_of_lt_mul (by rwa [mul_comm]), h1⟩, ?_⟩
    rw [rowMajor, h2, mul_comm]
    exact Nat.div_add_mod n _

theorem rowMajor_append {s t i j : List Nat} (h : i.length = s.length) :
    rowMajor (s ++ t) (i ++ j) = rowMajor s i * t.prod + rowMajor t j := by
  induction s generalizing i with
  | nil =>
    obtain rfl : i = [] := List.length_eq_zero_iff.1 h
    simp [rowMajor]
  | cons d ds ih =>
    rcases i with _ | ⟨a, i⟩
    · simp at h
    · simp only [List.cons_append, rowMajor, List.prod_append]
      rw [ih (by simpa using h)]
      ring

theorem flatR_append (r t : List Nat) (c : Nat → Nat) :
    flatR (r ++ t) c = flatR r c + r.prod * flatR t (fun k => c (k + r.length)) := by
  induction r generalizing c with
  | nil => simp [flatR]
  | cons d ds ih =>
    simp only [List.cons_append, flatR, ih, List.prod_cons, List.length_cons]
    have : (fun k => c (k + ds.length + 1)) = fun k => c (k + (ds.length + 1)) := by
      funext k; rw [add_assoc]
    rw [this]
    ring

theorem flatR_congr (r : List Nat) {c c' : Nat → Nat} (h : ∀ k < r.length, c k = c' k) : flatR r c = flatR r c' := by
  induction r generalizing c c' with
  | nil => rfl
  | cons d ds ih =>
    simp only [flatR]
    rw [h 0 (by simp), ih fun k hk => h (k + 1) (by simpa using hk)]

theorem flatR_coord {s i : List Nat} (h : i.length = s.length) : flatR s.reverse (coord i) = rowMajor s i := by
  induction s generalizing i with
  | nil =>
    obtain rfl : i = [] := List.length_eq_zero_iff.1 h
    simp [flatR, rowMajor]
  | cons d ds ih =>
    rcases i with _ | ⟨a, i⟩
    · simp at h
    · have hl : i.length = ds.length := by simpa using h
      rw [List.reverse_cons, flatR_append, rowMajor, ← ih hl, List.prod_reverse, List.length_reverse]
      rw [flatR_congr (c := coord (a :: i)) (c' := coord i)]
      · rw [coord_cons]
        simp [flatR, hl]
        ring
      · intro k hk
        rw [coord_cons, Function.update_of_ne]
        simp at hk
        omega

/-- the positions of blocks of axes -/
theorem rowMajor_flatten {bs is : List (List Nat)} (h : List.Forall₂ (fun i s => i ∈ indices s) is bs) :
    rowMajor bs.flatten is.flatten = rowMajor (bs.map List.prod) (List.zipWith rowMajor bs is) := by
  induction h with
  | nil => rfl
  | cons h _ ih =>
    simp only [List.flatten_cons, List.map_cons, List.zipWith_cons_cons, rowMajor]
    rw [rowMajor_append (length_of_mem_indices h), ih, List.prod_flatten]

theorem flatten_mem_indices {bs is : List (List Nat)} (h : List.Forall₂ (fun i s => i ∈ indices s) is bs) :
    is.flatten ∈ indices bs.flatten := by
  induction h with
  | nil => simp [indices]
  | cons h _ ih => exact append_mem_indices h ih

theorem zipWith_mem_indices {bs is : List (List Nat)} (h : List.Forall₂ (fun i s => i ∈ indices s) is bs) :
    List.zipWith rowMajor bs is ∈ indices (bs.map List.prod) := by
  induction h with
  | nil => simp [indices]
  | cons h _ ih => exact mem_indices_cons.2 ⟨rowMajor_lt h, ih⟩

/-- reading a reshaped array -/
theorem npReshape_index {α : Type _} {X Y : Arr α} {s : List Nat} (h : npReshape X s = .ok Y) {i j : List Nat}
    (hi : i.length = s.length) (hj : j ∈ indices X.shape) (e : rowMajor s i = rowMajor X.shape j) :
    Y.get (coord i) = X.get (coord j) :=
  (npReshape_get h).2 _ _ (coord_valid hj) (by rw [flatR_coord hi, flatR_coord (length_of_mem_indices hj), e])

/-- the positions number the multi-indices -/
noncomputable def rowEquiv (s : List Nat) : MultiIndex s ≃ Fin s.prod :=
  Equiv.ofBijective (fun i => ⟨rowMajor s i, rowMajor_lt (List.mem_toFinset.1 i.2)⟩)
    ⟨fun i j h => Subtype.ext (rowMajor_inj (List.mem_toFinset.1 i.2) (List.mem_toFinset.1 j.2) (Fin.mk.inj h)),
      fun n => by
        obtain ⟨i, h1, h2⟩ := rowMajor_surj n.2
        exact ⟨⟨i, List.mem_toFinset.2 h1⟩, Fin.ext h2⟩⟩

theorem rowEquiv_val {s : List Nat} (i : MultiIndex s) : (rowEquiv s i : Nat) = rowMajor s i := rfl

end Verif
