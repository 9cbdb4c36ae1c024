import Verif.Lemmas.Multiplier
import Verif.Props.Shape

/-!
# C04, C05, C06: the sum-product helpers
-/

namespace Verif
open Spec Function

/-! ## C04 -/

open Classical in
/-- `broadcasting_multiplier` succeeds iff every argument broadcasts to `plates`; otherwise it raises
`ValueError`.  Its value is the product of the lengths of exactly those axes of `plates` on which
every argument is unit or missing. -/
theorem C04_multiplier_value (plates : List Nat) (args : List (List Nat)) :
    broadcastingMultiplier plates args =
      if ∀ a ∈ args, BroadcastsTo a plates then
        .ok (((List.range plates.length).filter
          fun k => decide (∀ a ∈ args, axisLen a k = 1)).map (axisLen plates)).prod
      else .error .valueError := by
  split
  · rename_i h
    rw [broadcastingMultiplier_ok h]
    unfold selAxes
    rw [List.map_map]
    rfl
  · rename_i h
    exact broadcastingMultiplier_error h

/-- Summing the product of the arrays over their own joint broadcast shape and multiplying by the
result equals summing the product over all of `plates`. -/
theorem C04_multiplier_sum {α : Type} [CommSemiring α] (plates J : List Nat) (args : List (Arr α))
    (r : Nat) (h : broadcastingMultiplier plates (args.map (·.shape)) = .ok r)
    (hJ : IsBroadcast (args.map (·.shape)) J) :
    (r : α) * sumOver J (fun c => (args.map fun X => X.at c).prod)
      = sumOver plates (fun c => (args.map fun X => X.at c).prod) := by
  have hb : ∀ a ∈ args.map (·.shape), BroadcastsTo a plates := by
    by_contra hcon
    rw [broadcastingMultiplier_error hcon] at h
    cases h
  rw [broadcastingMultiplier_ok hb] at h
  cases h
  show _ * sumOver J (prodAt args) = sumOver plates (prodAt args)
  have hJp : ∀ k, axisLen J k = 1 ∨ axisLen J k = axisLen plates k := by
    intro k
    rcases hJ.attained k with h | ⟨s, hs, h⟩
    · exact .inl h
    · have := (hb s hs).2 k
      omega
  have hJ1 : ∀ k, axisLen J k = 1 ↔ ∀ a ∈ args.map (·.shape), axisLen a k = 1 := by
    intro k
    constructor
    · intro h a ha
      have := hJ.fits k a ha
      omega
    · intro h
      rcases hJ.attained k with h1 | ⟨s, hs, h1⟩
      · exact h1
      · rw [← h1]; exact h s hs
  rw [sumOver_eq_sumAxes, sumOver_eq_sumAxes]
  have hindep : ∀ k, axisLen J k = 1 → ∀ c t, prodAt args (update c k t) = prodAt args c := by
    intro k hk c t
    apply prodAt_congr hJ
    intro i hi
    rw [update_of_ne]
    rintro rfl
    exact hi hk
  have key := multiplier_sum 0 plates (fun _ => true) (fun j => decide (axisLen J j = 1))
    (prodAt args) (by
      intro j _ _ hq c t
      exact hindep j (by simpa using hq) c t) (fun _ => 0)
  have key2 := multiplier_sum 0 J (fun _ => true) (fun j => decide (axisLen J j = 1))
    (prodAt args) (by
      intro j _ _ hq c t
      exact hindep j (by simpa using hq) c t) (fun _ => 0)
  have hmap : ∀ L : List (Nat × Nat), (L.map fun a => (a.1 + 0, a.2)) = L := by
    intro L; simp
  simp only [hmap, Bool.true_and] at key key2
  rw [← key, ← key2]
  have h1 : (((selAxes J fun k => decide (axisLen J k = 1)).map (·.2)).prod) = 1 := by
    apply List.prod_eq_one
    intro d hd
    rw [List.mem_map] at hd
    obtain ⟨⟨i, e⟩, hi, rfl⟩ := hd
    rw [mem_selAxes] at hi
    obtain ⟨_, h2, rfl⟩ := hi
    simpa using h2
  rw [h1, Nat.cast_one, one_mul]
  congr 1
  · congr 3
    unfold selAxes
    congr 1
    apply List.filter_congr
    intro k _
    apply decide_eq_decide.2
    rw [hJ1]
  · apply sumAxes_perm _ (selAxes_nodup _ _)
    rw [List.perm_ext_iff_of_nodup (selAxes_nodup _ _).of_map (selAxes_nodup _ _).of_map]
    rintro ⟨i, d⟩
    rw [mem_selAxes, mem_selAxes]
    simp only [Bool.not_eq_true', decide_eq_false_iff_not]
    have := hJp i
    constructor
    · rintro ⟨_, h2, rfl⟩
      refine ⟨?_, h2, by omega⟩
      by_contra hcon
      have := axisLen_of_ge (s := plates) (k := i) (by omega)
      omega
    · rintro ⟨_, h2, rfl⟩
      refine ⟨?_, h2, by omega⟩
      by_contra hcon
      have := axisLen_of_ge (s := J) (k := i) (by omega)
      omega

example : broadcastingMultiplier [4, 2, 3] [[2, 1], [1, 1, 1]] = .ok 12 := by decide
example : broadcastingMultiplier [4, 2, 3] [[2, 2]] = .error .valueError := by decide
/-- A non-trivial instance of the hypotheses of `C04_multiplier_sum`. -/
example : ∃ r, broadcastingMultiplier [4, 2, 3]
      (([⟨[2, 1], fun c => c 1⟩, ⟨[], fun _ => 7⟩] : List (Arr Nat)).map (·.shape)) = .ok r ∧
    IsBroadcast (([⟨[2, 1], fun c => c 1⟩, ⟨[], fun _ => 7⟩] : List (Arr Nat)).map (·.shape)) [2, 1] :=
  ⟨12, by decide, (broadcastedShape_ok _ _).1 (by decide)⟩

/-! ## C05 -/

open Classical in
/-- With explicit source plates, `sum_multiply_to_plates` succeeds, its plate axes are those of the
target (its non-plate axes those of the product), and each element is the sum, over all elements of
`from_plates` which the target element corresponds to, of the product of the arrays. -/
theorem C05_sum_multiply_to_plates {α : Type} [CommSemiring α] (arrays : List (Arr α))
    (B tgt src : List Nat) (n : Nat) (hne : arrays ≠ [])
    (hB : IsBroadcast (arrays.map (·.shape)) B)
    (hP : BroadcastsTo (getPlates n B) src) (hT : BroadcastsTo tgt src) :
    ∃ y, sumMultiplyToPlates arrays tgt (some src) n = .ok y ∧
      y.shape.length ≤ tgt.length + n ∧
      (∀ i, i < n → axisLen y.shape i = axisLen B i) ∧
      (∀ j, axisLen y.shape (j + n) = 1 ∨ axisLen y.shape (j + n) = axisLen tgt j) ∧
      ∀ idx : Nat → Nat, (∀ i, i < n → idx i < axisLen B i) →
        (∀ j, idx (j + n) < axisLen tgt j) →
        y.at idx = sumOver src fun c =>
          if ReadsFrom tgt c (fun j => idx (j + n)) then
            (arrays.map fun X => X.at fun i => if i < n then idx i else c (i - n)).prod
          else 0 := by
  classical
  obtain ⟨y, h1, h2, h3, h4⟩ := sumMultiplyToPlates_some_ok hne hB hP hT
  have hPB : ∀ j, axisLen B (j + n) = 1 ∨ axisLen B (j + n) = axisLen src j := by
    intro j; have := hP.2 j; rwa [axisLen_getPlates] at this
  refine ⟨y, h1, by omega, ?_, ?_, ?_⟩
  · intro i hi
    rw [h3, if_neg (by omega)]
  · intro j
    rw [h3]
    have := hPB j
    have := hT.2 j
    rw [Nat.add_sub_cancel]
    split <;> omega
  · intro idx hi1 hi2
    rw [h4 idx]
    · have hro : ∀ c, ReadsFrom tgt c (fun j => idx (j + n)) ↔
          ((∀ k, k < src.length → decide (axisLen tgt k = 1) = true ∨ c k = idx (k + n))) := by
        intro c
        unfold ReadsFrom
        constructor
        · intro h k _; simpa using h k
        · intro h k
          by_cases hk : k < src.length
          · simpa using h k hk
          · left
            exact axisLen_of_ge (by have := hT.1; omega)
      simp only [hro]
      rw [sumOver_ite src (fun k => decide (axisLen tgt k = 1))
        (fun c => (arrays.map fun X => X.at fun i => if i < n then idx i else c (i - n)).prod)
        (fun j => idx (j + n))]
      · have := sumAxes_shift n idx (selAxes src fun j => decide (axisLen tgt j = 1))
          (prodAt arrays) (fun k => if k < src.length then idx (k + n) else 0)
        refine Eq.trans ?_ this.symm
        congr 1
        funext i
        by_cases hin : i < n
        · simp [hin]
        · simp only [hin, if_false]
          by_cases hil : i - n < src.length
          · rw [if_pos hil, Nat.sub_add_cancel (by omega)]
          · rw [if_neg hil]
            have := hi2 (i - n)
            rw [Nat.sub_add_cancel (by omega), axisLen_of_ge (by have := hT.1; omega)] at this
            omega
      · intro k _ hk
        have := hi2 k
        have := hT.2 k
        simp at hk
        omega
    · intro i
      rw [h3]
      by_cases hin : i < n
      · rw [if_neg (by omega)]
        exact .inr (hi1 i hin)
      · have := hi2 (i - n)
        have h5 := hT.2 (i - n)
        have h6 := hPB (i - n)
        rw [Nat.sub_add_cancel (by omega)] at this h6
        split
        · exact .inl rfl
        · rename_i h
          have : axisLen tgt (i - n) ≠ 1 := fun h' => h ⟨by omega, h'⟩
          rcases h6 with h6 | h6
          · exact .inl h6
          · right; omega

open Classical in
/-- Without source plates the joint broadcast of the array plates and the target is used. -/
theorem C05_sum_multiply_to_plates_default {α : Type} [CommSemiring α] (arrays : List (Arr α))
    (B tgt S : List Nat) (n : Nat) (hne : arrays ≠ [])
    (hB : IsBroadcast (arrays.map (·.shape)) B)
    (hS : IsBroadcast [getPlates n B, tgt] S) :
    ∃ y, sumMultiplyToPlates arrays tgt none n = .ok y ∧
      y.shape.length ≤ tgt.length + n ∧
      ∀ idx : Nat → Nat, (∀ i, i < n → idx i < axisLen B i) →
        (∀ j, idx (j + n) < axisLen tgt j) →
        y.at idx = sumOver S fun c =>
          if ReadsFrom tgt c (fun j => idx (j + n)) then
            (arrays.map fun X => X.at fun i => if i < n then idx i else c (i - n)).prod
          else 0 := by
  rw [sumMultiplyToPlates_none hB hS]
  have hargs : ∀ a ∈ [getPlates n B, tgt], BroadcastsTo a S := fun a ha =>
    ⟨hS.rank_ge a ha, fun k => hS.fits k a ha⟩
  obtain ⟨y, h1, h2, _, _, h5⟩ := C05_sum_multiply_to_plates arrays B tgt S n hne hB
    (hargs _ (by simp)) (hargs _ (by simp))
  exact ⟨y, h1, h2, h5⟩

/-- If the plates of the product or the target do not broadcast to the source plates (or the plates
of the arrays are incompatible), the function raises `ValueError` instead of returning a wrong
sum. -/
theorem C05_sum_multiply_to_plates_rejects {α : Type} [CommSemiring α] (arrays : List (Arr α))
    (tgt src : List Nat) (n : Nat)
    (h : ∀ P, IsBroadcast (arrays.map fun X => getPlates n X.shape) P →
      ¬ (BroadcastsTo P src ∧ BroadcastsTo tgt src)) :
    sumMultiplyToPlates arrays tgt (some src) n = .error .valueError := by
  unfold sumMultiplyToPlates
  cases hb : broadcastedShape (arrays.map fun X => getPlates n X.shape) with
  | error e =>
    simp only [bind, Except.bind, hb, broadcastedShape_error hb]
  | ok P =>
    have := h P ((broadcastedShape_ok _ _).1 hb)
    simp only [bind, Except.bind, hb]
    rw [broadcastingMultiplier_error]
    intro hall
    exact this ⟨hall P (by simp), hall tgt (by simp)⟩

/-- A non-trivial instance: two arrays, one trailing axis, a reduced, a broadcast and a kept plate. -/
example : IsBroadcast (([⟨[2, 1, 2], fun c => c 0 + c 2⟩, ⟨[3, 1], fun c => c 1⟩] :
      List (Arr Nat)).map (·.shape)) [2, 3, 2] ∧
    BroadcastsTo (getPlates 1 [2, 3, 2]) [5, 2, 3] ∧ BroadcastsTo [2, 1] [5, 2, 3] := by
  refine ⟨(broadcastedShape_ok _ _).1 (by decide), ?_, ?_⟩
  · exact (isShapeSubset_true _ _).1 (by decide)
  · exact (isShapeSubset_true _ _).1 (by decide)

/-! ## C06

The full claim is: for every axis specification the requested reduction is computed and out-of-range
axes raise.  The code refutes the second half with `sumaxis=True` (out-of-range axes are ignored),
and a scalar `axis` with `sumaxis=False` raises `TypeError`.  Everything else is proved. -/

/-- What `sum_multiply` has to return when the axes (counted from the left) in `S` are summed: the
lengths of the kept axes (with `keepdims`, ones in place of the summed axes), and at each position
the sum of the product over all elements which agree with it on the kept axes. -/
def ReductionOf {α : Type} [CommSemiring α] (args : List (Arr α)) (B : List Nat) (S : Nat → Prop)
    [DecidablePred S] (keepdims : Bool) (y : Arr α) : Prop :=
  y.shape = (if keepdims then (List.range B.length).map fun p =>
        if S p then 1 else axisLen B (B.length - 1 - p)
      else ((List.range B.length).filter fun p => ¬ S p).map fun p =>
        axisLen B (B.length - 1 - p)) ∧
  ∀ i : List Nat, i.length = B.length →
    (∀ p, p < B.length → ¬ S p → i.getD p 0 < axisLen B (B.length - 1 - p)) →
    y.at (coord (if keepdims then (List.range B.length).map fun p => if S p then 0 else i.getD p 0
        else ((List.range B.length).filter fun p => ¬ S p).map fun p => i.getD p 0))
      = sumOver B fun c =>
          if ∀ k, k < B.length → S (B.length - 1 - k) ∨ c k = coord i k then
            (args.map fun X => X.at c).prod else 0

theorem coord_getD (i : List Nat) (k : Nat) (h : k < i.length) :
    coord i k = i.getD (i.length - 1 - k) 0 := by
  unfold coord
  rw [List.getD_eq_getElem?_getD, List.getD_eq_getElem?_getD, List.getElem?_reverse h]

theorem coord_ge (i : List Nat) (k : Nat) (h : i.length ≤ k) : coord i k = 0 := by
  unfold coord
  rw [List.getD_eq_getElem?_getD, List.getElem?_eq_none (by simpa using h)]
  rfl

theorem axisLen_map_range (M : Nat) (g : Nat → Nat) (k : Nat) :
    axisLen ((List.range M).map g) k = if k < M then g (M - 1 - k) else 1 := by
  split
  · rename_i h
    unfold axisLen
    rw [List.getElem?_reverse (by simpa using h)]
    simp
    rw [List.getElem?_eq_getElem (by simp; omega)]
    simp
  · rename_i h
    exact axisLen_of_ge (by simpa using h)

theorem axisLen_map_filter (out : List Nat) (g : Nat → Nat) (k : Nat) (h : k < out.length) :
    axisLen (out.map g) k = g (out[out.length - 1 - k]'(by omega)) := by
  unfold axisLen
  rw [List.getElem?_reverse (by simpa using h)]
  simp
  rw [List.getElem?_eq_getElem (by omega)]
  simp

theorem reduction_spec {α : Type} [CommSemiring α] {args : List (Arr α)} {B : List Nat}
    (hne : args ≠ []) (hB : IsBroadcast (args.map (·.shape)) B) {axis : AxisArg} {sumaxis : Bool}
    {S : Nat → Prop} [DecidablePred S]
    (hout : keptAxes B.length axis sumaxis = .ok ((List.range B.length).filter fun p => ¬ S p))
    (keepdims : Bool) :
    ∃ y, sumMultiply args axis sumaxis keepdims = .ok y ∧ ReductionOf args B S keepdims y := by
  have hmem : ∀ l, l ∈ ((List.range B.length).filter fun p => ¬ S p) ↔ l < B.length ∧ ¬ S l := by
    intro l; simp
  have hsum : ∀ (i : List Nat), i.length = B.length →
      (∀ p, p < B.length → ¬ S p → i.getD p 0 < axisLen B (B.length - 1 - p)) →
      (sumOver B fun c =>
          if ∀ k, k < B.length → S (B.length - 1 - k) ∨ c k = coord i k then
            (args.map fun X => X.at c).prod else 0)
      = sumAxes (selAxes B (fun k => decide (B.length - 1 - k ∉
          ((List.range B.length).filter fun p => ¬ S p)))) (prodAt args)
          (fun k => if k < B.length then coord i k else 0) := by
    intro i hlen hi
    have := sumOver_ite B (fun k => decide (B.length - 1 - k ∉
          ((List.range B.length).filter fun p => ¬ S p))) (prodAt args) (coord i) (by
        intro k hk hp
        simp only [hmem, decide_eq_false_iff_not, not_not] at hp
        rw [coord_getD _ _ (by omega), hlen]
        have := hi (B.length - 1 - k) hp.1 hp.2
        rwa [show B.length - 1 - (B.length - 1 - k) = k by omega] at this)
    rw [← this]
    congr 1
    funext c
    apply if_congr _ rfl rfl
    constructor
    · intro h k hk
      rcases h k hk with h' | h'
      · left; simp [h']
      · exact .inr h'
    · intro h k hk
      rcases h k hk with h' | h'
      · left
        simp only [hmem, decide_eq_true_eq] at h'
        by_contra hcon
        exact h' ⟨by omega, hcon⟩
      · exact .inr h'
  cases keepdims with
  | true =>
    obtain ⟨z, h1, h2, h3⟩ := sumMultiply_keepdims hne hB hout (by
      apply List.filter_congr
      intro p hp
      rw [List.mem_range] at hp
      simp [hp])
    refine ⟨z, h1, ?_, ?_⟩
    · rw [h2, if_pos rfl]
      apply List.map_congr_left
      intro p hp
      rw [List.mem_range] at hp
      simp only [hmem, hp, true_and]
      by_cases hS : S p <;> simp [hS]
    · intro i hlen hi
      rw [if_pos rfl, hsum i hlen hi]
      have hv : ValidIn z.shape (coord ((List.range B.length).map
          fun p => if S p then 0 else i.getD p 0)) := by
        intro k
        rw [h2, axisLen_map_range]
        split
        · rename_i hk
          rw [coord_getD _ _ (by simpa using hk)]
          simp only [List.length_map, List.length_range, List.getD_eq_getElem?_getD]
          rw [List.getElem?_eq_getElem (by simp; omega)]
          simp only [List.getElem_map, List.getElem_range, Option.getD_some]
          by_cases hS : S (B.length - 1 - k)
          · simp [hS]
          · rw [if_neg hS, if_pos ((hmem _).2 ⟨by omega, hS⟩)]
            have := hi _ (by omega) hS
            rwa [List.getD_eq_getElem?_getD] at this
        · rename_i hk
          rw [coord_ge _ _ (by simpa using hk)]
          omega
      rw [Arr.at_of_valid _ hv, h3 _ hv]
      apply sumAxes_base
      intro k hk
      by_cases hkB : k < B.length
      · rw [if_pos hkB, coord_getD _ _ (by simpa using hkB), coord_getD _ _ (by omega), hlen]
        simp only [List.length_map, List.length_range, List.getD_eq_getElem?_getD]
        rw [List.getElem?_eq_getElem (by simp; omega)]
        simp only [List.getElem_map, List.getElem_range, Option.getD_some]
        rw [if_neg]
        intro hS
        apply hk
        rw [List.mem_map]
        exact ⟨(k, axisLen B k), mem_selAxes.2 ⟨hkB, by simp [hS], rfl⟩, rfl⟩
      · rw [if_neg hkB, coord_ge _ _ (by simpa using hkB)]
  | false =>
    obtain ⟨z, h1, h2, h3⟩ := sumMultiply_nokeepdims hne hB hout (List.nodup_range.filter _)
      (fun l hl => ((hmem l).1 hl).1)
    refine ⟨z, h1, ?_, ?_⟩
    · rw [h2]; rfl
    · intro i hlen hi
      rw [hsum i hlen hi]
      simp only [Bool.false_eq_true, if_false]
      set out := (List.range B.length).filter fun p => ¬ S p with hoe
      have hv : ValidIn z.shape (coord (out.map fun p => i.getD p 0)) := by
        intro k
        rw [h2]
        by_cases hk : k < out.length
        · rw [axisLen_map_filter _ _ _ hk, coord_getD _ _ (by simpa using hk)]
          simp only [List.length_map, List.getD_eq_getElem?_getD]
          rw [List.getElem?_eq_getElem (by simp; omega)]
          simp only [List.getElem_map, Option.getD_some]
          have hm : out[out.length - 1 - k] ∈ out := List.getElem_mem _
          rw [hmem] at hm
          have := hi _ hm.1 hm.2
          rwa [List.getD_eq_getElem?_getD] at this
        · rw [axisLen_of_ge (by simpa using hk), coord_ge _ _ (by simpa using hk)]
          omega
      rw [Arr.at_of_valid _ hv, h3]
      apply sumAxes_base
      intro k hk
      by_cases hkB : k < B.length
      · have hin : B.length - 1 - k ∈ out := by
          by_contra hcon
          apply hk
          rw [List.mem_map]
          exact ⟨(k, axisLen B k), mem_selAxes.2 ⟨hkB, by simpa using hcon, rfl⟩, rfl⟩
        rw [if_pos ⟨hkB, hin⟩, if_pos hkB]
        have hidx := List.idxOf_lt_length_of_mem hin
        rw [coord_getD _ _ (by simp; omega), coord_getD _ _ (by omega), hlen]
        simp only [List.length_map]
        rw [show out.length - 1 - (out.length - 1 - out.idxOf (B.length - 1 - k))
          = out.idxOf (B.length - 1 - k) by omega]
        rw [List.getD_eq_getElem?_getD, List.getElem?_eq_getElem (by simpa using hidx)]
        simp [List.getElem_idxOf]
      · rw [if_neg hkB, if_neg (by tauto)]

/-- `sumaxis=True`, a sequence of axes: the listed axes (negative ones counted from the end) are
summed. -/
theorem C06_sum_axes_partial {α : Type} [CommSemiring α] (args : List (Arr α)) (B : List Nat)
    (as : List Int) (keepdims : Bool) (hne : args ≠ [])
    (hB : IsBroadcast (args.map (·.shape)) B) :
    ∃ y, sumMultiply args (.seq as) true keepdims = .ok y ∧
      ReductionOf args B (fun p => ∃ a ∈ as, Names B.length a p) keepdims y :=
  reduction_spec hne hB (keptAxes_sum_seq _ _) keepdims

/-- `sumaxis=True`, a single axis. -/
theorem C06_sum_scalar_axis_partial {α : Type} [CommSemiring α] (args : List (Arr α)) (B : List Nat)
    (a : Int) (keepdims : Bool) (hne : args ≠ []) (hB : IsBroadcast (args.map (·.shape)) B) :
    ∃ y, sumMultiply args (.scalar a) true keepdims = .ok y ∧
      ReductionOf args B (fun p => Names B.length a p) keepdims y :=
  reduction_spec hne hB (by rw [keptAxes_sum_scalar, keptAxes_sum_seq]; simp) keepdims

/-- `sumaxis=True` without axes sums everything. -/
theorem C06_sum_all {α : Type} [CommSemiring α] (args : List (Arr α)) (B : List Nat)
    (keepdims : Bool) (hne : args ≠ []) (hB : IsBroadcast (args.map (·.shape)) B) :
    ∃ y, sumMultiply args .none true keepdims = .ok y ∧
      ReductionOf args B (fun _ => True) keepdims y :=
  reduction_spec hne hB (by rw [keptAxes_sum_none]; simp) keepdims

/-- `sumaxis=False` without axes sums nothing. -/
theorem C06_keep_all {α : Type} [CommSemiring α] (args : List (Arr α)) (B : List Nat)
    (keepdims : Bool) (hne : args ≠ []) (hB : IsBroadcast (args.map (·.shape)) B) :
    ∃ y, sumMultiply args .none false keepdims = .ok y ∧
      ReductionOf args B (fun _ => False) keepdims y :=
  reduction_spec hne hB (by rw [keptAxes_keep_none]; simp) keepdims

/-- An axis number is in range iff it names an axis. -/
theorem normAxis_names {M : Nat} {a : Int} {p : Nat} (hp : p < M) :
    normAxis M a = p ↔ Names M a p := by
  unfold normAxis Names
  split <;> omega

theorem inRange_iff {M : Nat} {a : Int} :
    (0 ≤ normAxis M a ∧ normAxis M a < M) ↔ ∃ p < M, Names M a p := by
  constructor
  · rintro ⟨h1, h2⟩
    refine ⟨(normAxis M a).toNat, by omega, ?_⟩
    rw [← normAxis_names (by omega)]
    omega
  · rintro ⟨p, hp, h⟩
    rw [← normAxis_names hp] at h
    omega

/-- `sumaxis=False` with distinct axes in range: exactly the listed axes are kept. -/
theorem C06_keep_axes {α : Type} [CommSemiring α] (args : List (Arr α)) (B : List Nat)
    (as : List Int) (keepdims : Bool) (hne : args ≠ [])
    (hB : IsBroadcast (args.map (·.shape)) B)
    (hin : ∀ a ∈ as, ∃ p < B.length, Names B.length a p)
    (hdist : as.Pairwise fun a b => ∀ p < B.length, ¬ (Names B.length a p ∧ Names B.length b p)) :
    ∃ y, sumMultiply args (.seq as) false keepdims = .ok y ∧
      ReductionOf args B (fun p => ¬ ∃ a ∈ as, Names B.length a p) keepdims y := by
  refine reduction_spec hne hB ?_ keepdims
  rw [keptAxes_keep_seq, if_pos (fun a ha => inRange_iff.2 (hin a ha))]
  congr 1
  have hr : ∀ a ∈ as, 0 ≤ normAxis B.length a ∧ normAxis B.length a < B.length :=
    fun a ha => inRange_iff.2 (hin a ha)
  have hms : ∀ x, x ∈ (as.map (normAxis B.length)).mergeSort ↔ ∃ a ∈ as, normAxis B.length a = x := by
    intro x
    rw [(List.mergeSort_perm _ _).mem_iff, List.mem_map]
  have hnd : ((as.map (normAxis B.length)).mergeSort).Nodup := by
    rw [(List.mergeSort_perm _ _).nodup_iff, List.Nodup, List.pairwise_map]
    refine hdist.imp_of_mem ?_
    intro a b ha hb h heq
    obtain ⟨p, hp, hap⟩ := hin a ha
    refine h p hp ⟨hap, ?_⟩
    rw [← normAxis_names hp] at hap ⊢
    omega
  have hsorted : ((as.map (normAxis B.length)).mergeSort).Pairwise (· ≤ ·) := by
    have := List.pairwise_mergeSort' (r := fun a b : Int => a ≤ b) (as.map (normAxis B.length))
    exact this
  have hpos : ∀ x ∈ (as.map (normAxis B.length)).mergeSort, 0 ≤ x ∧ x < B.length := by
    intro x hx
    obtain ⟨a, ha, rfl⟩ := (hms x).1 hx
    exact hr a ha
  apply List.Perm.eq_of_pairwise' (r := fun a b : Nat => a ≤ b)
  · rw [List.pairwise_map]
    refine hsorted.imp ?_
    intro a b h
    omega
  · refine List.Pairwise.filter _ ?_
    exact List.pairwise_lt_range.imp fun h => Nat.le_of_lt h
  · rw [List.perm_ext_iff_of_nodup]
    · intro p
      rw [List.mem_map]
      simp only [List.mem_filter, List.mem_range, not_not, decide_eq_true_eq]
      constructor
      · rintro ⟨x, hx, rfl⟩
        obtain ⟨a, ha, rfl⟩ := (hms x).1 hx
        have := hr a ha
        refine ⟨by omega, a, ha, ?_⟩
        rw [← normAxis_names (by omega)]
        omega
      · rintro ⟨hp, a, ha, h⟩
        rw [← normAxis_names hp] at h
        exact ⟨_, (hms _).2 ⟨a, ha, rfl⟩, by omega⟩
    · refine (List.nodup_map_iff_inj_on hnd).2 ?_
      intro x hx y hy h
      have := hpos x hx
      have := hpos y hy
      omega
    · exact List.nodup_range.filter _

/-- `sumaxis=False` with an axis out of range raises `ValueError`. -/
theorem C06_keep_axes_out_of_range {α : Type} [CommSemiring α] (args : List (Arr α)) (B : List Nat)
    (as : List Int) (keepdims : Bool) (hne : args ≠ [])
    (hB : IsBroadcast (args.map (·.shape)) B)
    (hout : ∃ a ∈ as, ¬ ∃ p < B.length, Names B.length a p) :
    sumMultiply args (.seq as) false keepdims = .error .valueError := by
  have hl : args.length ≠ 0 := by simpa using hne
  obtain ⟨a, ha, h⟩ := hout
  unfold sumMultiply
  rw [if_neg hl]
  simp only [maxDim_eq hB, keptAxes_keep_seq]
  rw [if_neg fun hall => h (inRange_iff.1 (hall a ha))]
  rfl

/-- No arguments at all raise `ValueError`. -/
theorem C06_no_arguments {α : Type} [CommSemiring α] (axis : AxisArg) (sumaxis keepdims : Bool) :
    sumMultiply ([] : List (Arr α)) axis sumaxis keepdims = .error .valueError := rfl

/-- Arguments whose shapes do not broadcast together never give a result. -/
theorem C06_incompatible {α : Type} [CommSemiring α] (args : List (Arr α))
    (axis : AxisArg) (sumaxis keepdims : Bool) (h : ¬ Compatible (args.map (·.shape))) :
    ∃ e, sumMultiply args axis sumaxis keepdims = .error e := by
  have hl : args.length ≠ 0 := by
    intro h0
    rw [List.length_eq_zero_iff] at h0
    subst h0
    exact h (by intro k s hs; cases hs)
  unfold sumMultiply
  rw [if_neg hl]
  · simp only [bind, Except.bind, pure, Except.pure]
    cases hk : keptAxes (args.foldl (fun m X => max m X.shape.length) 0) axis sumaxis with
    | error e => exact ⟨e, rfl⟩
    | ok axes =>
      have := npEinsum_incompatible h axes _ rfl
      unfold alignedLabels at this
      simp only [this]
      exact ⟨_, rfl⟩

/-- Out-of-range axes are not rejected with `sumaxis=True` (against the claim). -/
theorem C06_out_of_range_accepted_counterexample :
    ∃ y, sumMultiply [(⟨[2], fun c => c 0 + 1⟩ : Arr Nat)] (.seq [5]) true false = .ok y ∧
      y.shape = [2] := ⟨_, rfl, rfl⟩

/-- A scalar axis is rejected with a `TypeError` when `sumaxis=False` (against the claim). -/
theorem C06_scalar_axis_kept_counterexample :
    sumMultiply [(⟨[2, 3], fun c => c 0 + 1⟩ : Arr Nat)] (.scalar 0) false false
      = .error .typeError := rfl

/-- A non-trivial instance of the hypotheses, with negative and repeated axes. -/
example : ∃ y, sumMultiply [(⟨[2, 1, 3], fun c => c 0 + c 2⟩ : Arr Nat), ⟨[4, 1], fun c => c 1⟩]
      (.seq [-1, 0, 2]) true true = .ok y ∧ y.shape = [1, 4, 1] ∧ y.at (coord [0, 3, 0]) = 27 :=
  ⟨_, rfl, rfl, rfl⟩
/-- The hypotheses of `C06_keep_axes` and of `C06_keep_axes_out_of_range`. -/
example : (∀ a ∈ [(-1 : Int), 0], ∃ p < [2, 4, 3].length, Names [2, 4, 3].length a p) ∧
    [(-1 : Int), 0].Pairwise fun a b => ∀ p < [2, 4, 3].length,
      ¬ (Names [2, 4, 3].length a p ∧ Names [2, 4, 3].length b p) := by decide
example : ∃ a ∈ [(-4 : Int), 0], ¬ ∃ p < [2, 4, 3].length, Names [2, 4, 3].length a p := by decide
example : ¬ Compatible [[2, 3], [2]] := by
  intro h; have := h 0 [2, 3] (by simp) [2] (by simp); simp [axisLen] at this

end Verif
