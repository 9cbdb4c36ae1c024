import Mathlib.Tactic.Linarith
import Mathlib.Data.List.InsertIdx
import Verif.Lemmas.Arr
import Verif.Model.MoveAxis

/-!
# C08: moving an axis
-/

namespace Verif
open Spec

/-- The order of the axes after moving the axis at position `f` to position `t`: take it out and
insert it again, everything else keeps its relative order. -/
def movedOrder (n f t : Nat) : List Nat := ((List.range n).eraseIdx f).insertIdx t f

/-- Closed form of the moved order. -/
def movedAt (f t p : Nat) : Nat :=
  if p = t then f else if f ≤ p ∧ p < t then p + 1 else if t < p ∧ p ≤ f then p - 1 else p

theorem movedOrder_eq {n f t : Nat} (hf : f < n) (ht : t < n) :
    movedOrder n f t = (List.range n).map (movedAt f t) := by
  unfold movedOrder
  have hl : ((List.range n).eraseIdx f).length = n - 1 := by
    rw [List.length_eraseIdx]; simp [hf]
  apply List.ext_getElem
  · rw [List.length_insertIdx, hl, if_pos (by omega)]; simp; omega
  · intro p h1 h2
    simp only [List.getElem_map, List.getElem_range]
    rw [List.getElem_insertIdx]
    unfold movedAt
    have hpn : p < n := by simpa using h2
    by_cases h3 : p < t
    · simp only [h3, dite_true]
      rw [List.getElem_eraseIdx]
      split <;> simp <;> (repeat' split) <;> omega
    · simp only [h3, dite_false]
      by_cases h4 : p = t
      · simp [h4]
      · simp only [h4, dite_false]
        rw [List.getElem_eraseIdx]
        split <;> simp <;> (repeat' split) <;> omega

/-- The position named by an axis number of a rank-`n` array. -/
def axisPos (n : Nat) (a : Int) : Nat := (if a < 0 then a + n else a).toNat

theorem axisPos_lt {n : Nat} {a : Int} (h : -(n : Int) ≤ a ∧ a < n) : axisPos n a < n := by
  unfold axisPos; split <;> omega

theorem addAtSlice_eq (axes : List Int) (s : PySlice) (d : Int) {start stop step : Int}
    (h : sliceIndices s axes.length = .ok (start, stop, step)) :
    addAtSlice axes s d
      = .ok (axes.zipIdx.map fun a => if sliceSelects start stop step a.2 then a.1 + d else a.1) := by
  unfold addAtSlice; rw [h]; rfl

theorem moveaxisAxes_ok {n : Nat} {f t : Int} (hf : -(n : Int) ≤ f ∧ f < n)
    (ht : -(n : Int) ≤ t ∧ t < n) :
    moveaxisAxes n f t = .ok ((List.range n).map fun p =>
      if p = axisPos n t then f else (movedAt (axisPos n f) (axisPos n t) p : Int)) := by
  have hfp := axisPos_lt hf
  have htp := axisPos_lt ht
  have hfe : (axisPos n f : Int) = if f < 0 then f + n else f := by
    unfold axisPos; split <;> omega
  have hte : (axisPos n t : Int) = if t < 0 then t + n else t := by
    unfold axisPos; split <;> omega
  unfold moveaxisAxes
  rw [if_neg (by omega)]
  have h1 : sliceIndices ⟨some f, some t, none⟩ ((List.range n).map Int.ofNat).length
      = .ok ((axisPos n f : Int), (axisPos n t : Int), 1) := by
    unfold sliceIndices
    simp only [Option.getD_none, one_ne_zero, if_false, List.length_map, List.length_range,
      sliceBound]
    rw [hfe, hte]
    congr 2
    · split <;> simp <;> omega
    · congr 1
      split <;> simp <;> omega
  simp only [bind, Except.bind, addAtSlice_eq _ _ _ h1]
  have h2 : sliceIndices ⟨some f, some t, some (-1)⟩ (((List.range n).map Int.ofNat).zipIdx.map
      fun a => if sliceSelects (axisPos n f) (axisPos n t) 1 a.2 then a.1 + 1 else a.1).length
      = .ok ((axisPos n f : Int), (axisPos n t : Int), -1) := by
    unfold sliceIndices
    simp only [Option.getD_some, List.length_map, List.length_range, List.length_zipIdx,
      sliceBound]
    rw [hfe, hte]
    simp
    constructor <;> split <;> omega
  rw [addAtSlice_eq _ _ _ h2]
  unfold setAt
  simp only [List.length_map, List.length_range, List.length_zipIdx, ← hte]
  rw [if_neg (by omega)]
  congr 1
  apply List.ext_getElem
  · simp
  · intro p h3 h4
    have hpn : p < n := by simpa using h4
    simp only [List.getElem_set, List.getElem_map, List.getElem_range, List.getElem_zipIdx,
      Int.toNat_natCast, sliceSelects, movedAt]
    by_cases h5 : axisPos n t = p
    · simp [h5]
    · have h5' : ¬ p = axisPos n t := fun h => h5 h.symm
      simp only [h5, h5', if_false]
      simp
      split <;> split <;> (repeat' split) <;> omega

theorem C08_moveaxis_axes {n : Nat} {f t : Int} (hf : -(n : Int) ≤ f ∧ f < n)
    (ht : -(n : Int) ≤ t ∧ t < n) :
    ∃ axes, moveaxisAxes n f t = .ok axes ∧
      axes.map (axisPos n) = movedOrder n (axisPos n f) (axisPos n t) := by
  refine ⟨_, moveaxisAxes_ok hf ht, ?_⟩
  have hfp := axisPos_lt hf
  have htp := axisPos_lt ht
  rw [movedOrder_eq hfp htp, List.map_map]
  apply List.map_congr_left
  intro p hp
  simp only [Function.comp]
  by_cases h : p = axisPos n t
  · rw [if_pos h]; unfold movedAt; rw [if_pos h]
  · rw [if_neg h]
    unfold axisPos
    rw [if_neg (by omega)]
    simp

/-- Explicit transposition. -/
def transposeBy {α : Type _} (X : Arr α) (perm : List Nat) : Arr α :=
  { shape := perm.map fun a => X.shape.getD a 0
    get := fun c => X.get fun k => if k < X.shape.length then
      c (X.shape.length - 1 - perm.idxOf (X.shape.length - 1 - k)) else 0 }

theorem movedAt_inv {n f t p : Nat} (hf : f < n) (ht : t < n) (hp : p < n) :
    movedAt t f (movedAt f t p) = p ∧ movedAt f t p < n := by
  unfold movedAt
  (repeat' split) <;> omega

theorem movedOrder_perm {n f t : Nat} (hf : f < n) (ht : t < n) :
    (movedOrder n f t).Nodup ∧ (movedOrder n f t).length = n ∧ ∀ a ∈ movedOrder n f t, a < n := by
  rw [movedOrder_eq hf ht]
  refine ⟨?_, by simp, ?_⟩
  · refine (List.nodup_map_iff_inj_on List.nodup_range).2 ?_
    intro x hx y hy h
    rw [List.mem_range] at hx hy
    rw [← (movedAt_inv hf ht hx).1, h, (movedAt_inv hf ht hy).1]
  · intro a ha
    obtain ⟨p, hp, rfl⟩ := List.mem_map.1 ha
    exact (movedAt_inv hf ht (List.mem_range.1 hp)).2

theorem moveaxis_eq {α : Type _} (X : Arr α) {f t : Int}
    (hf : -(X.shape.length : Int) ≤ f ∧ f < X.shape.length)
    (ht : -(X.shape.length : Int) ≤ t ∧ t < X.shape.length) :
    moveaxis X f t = .ok (transposeBy X
      (movedOrder X.shape.length (axisPos X.shape.length f) (axisPos X.shape.length t))) := by
  obtain ⟨axes, h1, h2⟩ := C08_moveaxis_axes hf ht
  have hp := movedOrder_perm (axisPos_lt hf) (axisPos_lt ht)
  unfold moveaxis
  rw [h1]
  show npTranspose X axes = _
  have h3 := moveaxisAxes_ok hf ht
  rw [h1] at h3
  have h3 := Except.ok.inj h3
  unfold npTranspose
  simp only []
  rw [if_neg]
  · have h4 : (axes.map fun a : Int => (if a < 0 then a + X.shape.length else a).toNat)
        = movedOrder X.shape.length (axisPos X.shape.length f) (axisPos X.shape.length t) := h2
    rw [h4, if_neg (not_not.2 hp.1)]
    rfl
  · rintro (h | ⟨a, ha, h⟩)
    · apply h; rw [h3]; simp
    · rw [h3, List.mem_map] at ha
      obtain ⟨p, hpn, rfl⟩ := ha
      rw [List.mem_range] at hpn
      have := (movedAt_inv (axisPos_lt hf) (axisPos_lt ht) hpn).2
      split at h <;> omega

theorem transposeBy_spec {α : Type _} (X : Arr α) (perm : List Nat) (hnd : perm.Nodup)
    (hlen : perm.length = X.shape.length) (hlt : ∀ a ∈ perm, a < X.shape.length)
    (i : List Nat) (hi : i.length = X.shape.length) :
    (transposeBy X perm).get (coord (perm.map fun a => i.getD a 0)) = X.get (coord i) := by
  show X.get _ = _
  congr 1
  funext k
  by_cases hk : k < X.shape.length
  · rw [if_pos hk]
    have hmem : X.shape.length - 1 - k ∈ perm := by
      have hsub : perm ⊆ List.range X.shape.length := fun a ha => List.mem_range.2 (hlt a ha)
      have := (List.subperm_of_subset hnd hsub).perm_of_length_le (by simp [hlen])
      exact this.mem_iff.2 (by simp; omega)
    have hidx := List.idxOf_lt_length_of_mem hmem
    unfold coord
    rw [List.getD_eq_getElem?_getD, List.getD_eq_getElem?_getD, List.getElem?_reverse (by simp; omega),
      List.getElem?_reverse (by omega)]
    simp only [List.length_map]
    rw [show perm.length - 1 - (X.shape.length - 1 - perm.idxOf (X.shape.length - 1 - k))
        = perm.idxOf (X.shape.length - 1 - k) by omega, hi]
    rw [List.getElem?_map, List.getElem?_eq_getElem hidx]
    simp [List.getElem_idxOf]
  · rw [if_neg hk]
    unfold coord
    rw [List.getD_eq_getElem?_getD, List.getElem?_eq_none (by simp; omega)]
    rfl

/-- `moveaxis(A, from, to)` returns the array whose axes are those of `A` in the moved order, with
the elements of `A` at the correspondingly permuted indices. -/
theorem C08_moveaxis {α : Type _} (X : Arr α) (f t : Int)
    (hf : -(X.shape.length : Int) ≤ f ∧ f < X.shape.length)
    (ht : -(X.shape.length : Int) ≤ t ∧ t < X.shape.length) :
    ∃ Y, moveaxis X f t = .ok Y ∧
      let order := movedOrder X.shape.length (axisPos X.shape.length f) (axisPos X.shape.length t)
      Y.shape = order.map (fun a => X.shape.getD a 0) ∧
      ∀ i : List Nat, i.length = X.shape.length →
        Y.get (coord (order.map fun a => i.getD a 0)) = X.get (coord i) := by
  have hp := movedOrder_perm (axisPos_lt hf) (axisPos_lt ht)
  exact ⟨_, moveaxis_eq X hf ht, rfl, fun i hi => transposeBy_spec X _ hp.1 hp.2.1 hp.2.2 i hi⟩

/-- Out-of-range axes raise `ValueError`. -/
theorem C08_moveaxis_out_of_range {α : Type _} (X : Arr α) (f t : Int)
    (h : ¬ ((-(X.shape.length : Int) ≤ f ∧ f < X.shape.length) ∧
      (-(X.shape.length : Int) ≤ t ∧ t < X.shape.length))) :
    moveaxis X f t = .error .valueError := by
  unfold moveaxis moveaxisAxes
  rw [if_pos (by omega)]
  rfl

/-- Negative axis numbers are equivalent to counting from the end. -/
theorem C08_moveaxis_negative {α : Type _} (X : Arr α) (f t f' t' : Nat)
    (hf : f < X.shape.length) (ht : t < X.shape.length)
    (hf' : f' = X.shape.length - f) (ht' : t' = X.shape.length - t) :
    moveaxis X (-(f' : Int)) t = moveaxis X f t ∧ moveaxis X f (-(t' : Int)) = moveaxis X f t ∧
      moveaxis X (-(f' : Int)) (-(t' : Int)) = moveaxis X f t := by
  have e1 : axisPos X.shape.length (-(f' : Int)) = axisPos X.shape.length f := by
    unfold axisPos; split <;> split <;> omega
  have e2 : axisPos X.shape.length (-(t' : Int)) = axisPos X.shape.length t := by
    unfold axisPos; split <;> split <;> omega
  rw [moveaxis_eq X (f := -(f' : Int)) (t := t) (by omega) (by omega),
    moveaxis_eq X (f := f) (t := -(t' : Int)) (by omega) (by omega),
    moveaxis_eq X (f := -(f' : Int)) (t := -(t' : Int)) (by omega) (by omega),
    moveaxis_eq X (f := f) (t := t) (by omega) (by omega), e1, e2]
  exact ⟨rfl, rfl, rfl⟩

/-- The opposite move restores the array. -/
theorem C08_moveaxis_roundtrip {α : Type _} (X : Arr α) (f t : Int)
    (hf : -(X.shape.length : Int) ≤ f ∧ f < X.shape.length)
    (ht : -(X.shape.length : Int) ≤ t ∧ t < X.shape.length) :
    ∃ Y Z, moveaxis X f t = .ok Y ∧ moveaxis Y t f = .ok Z ∧ Z.shape = X.shape ∧
      ∀ i : List Nat, i.length = X.shape.length → Z.get (coord i) = X.get (coord i) := by
  have hp := movedOrder_perm (axisPos_lt hf) (axisPos_lt ht)
  have hp' := movedOrder_perm (axisPos_lt ht) (axisPos_lt hf)
  obtain ⟨Y, hY, hYs, hYv⟩ := C08_moveaxis X f t hf ht
  have hYl : Y.shape.length = X.shape.length := by rw [hYs]; simp [hp.2.1]
  obtain ⟨Z, hZ, hZs, hZv⟩ := C08_moveaxis Y t f (by rw [hYl]; exact ht) (by rw [hYl]; exact hf)
  rw [hYl] at hZs hZv
  have hget : ∀ (i : List Nat), i.length = X.shape.length → ∀ d,
      (movedOrder X.shape.length (axisPos X.shape.length t) (axisPos X.shape.length f)).map
        (fun a => ((movedOrder X.shape.length (axisPos X.shape.length f)
          (axisPos X.shape.length t)).map fun a => i.getD a d).getD a d) = i := by
    intro i hi d
    rw [movedOrder_eq (axisPos_lt hf) (axisPos_lt ht), movedOrder_eq (axisPos_lt ht) (axisPos_lt hf)]
    apply List.ext_getElem
    · simp [hi]
    · intro p h1 h2
      have hpn : p < X.shape.length := by omega
      have hb := movedAt_inv (axisPos_lt ht) (axisPos_lt hf) hpn
      simp only [List.getElem_map, List.getElem_range, List.map_map, Function.comp]
      rw [List.getD_eq_getElem?_getD, List.getElem?_eq_getElem (by simpa using hb.2)]
      simp only [List.getElem_map, List.getElem_range, Function.comp, Option.getD_some, hb.1]
      rw [List.getD_eq_getElem?_getD, List.getElem?_eq_getElem h2]
      rfl
  refine ⟨Y, Z, hY, hZ, ?_, ?_⟩
  · rw [hZs, hYs]
    exact hget X.shape rfl 0
  · intro i hi
    have h1 := hZv ((movedOrder X.shape.length (axisPos X.shape.length f)
          (axisPos X.shape.length t)).map fun a => i.getD a 0) (by simp [hp.2.1])
    rw [hget i hi 0] at h1
    rw [h1, hYv i hi]

/-- Non-trivial instances. -/
example : moveaxisAxes 4 (-1) 1 = .ok [0, -1, 1, 2] ∧ movedOrder 4 3 1 = [0, 3, 1, 2] := by decide
example : moveaxisAxes 4 0 (-2) = .ok [1, 2, 0, 3] ∧ movedOrder 4 0 2 = [1, 2, 0, 3] := by decide
example : ∃ Y, moveaxis (⟨[2, 3, 4], fun c => 100 * c 2 + 10 * c 1 + c 0⟩ : Arr Nat) 0 (-1) = .ok Y ∧
    Y.shape = [3, 4, 2] ∧ Y.get (coord [2, 3, 1]) = 123 := ⟨_, rfl, rfl, rfl⟩

end Verif
