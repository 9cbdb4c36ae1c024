import Verif.Lemmas.Reshape
import Mathlib.Data.List.Sort

/-! # Helper lemmas: `sum_multiply` -/

namespace Verif
open Spec Function

theorem isBroadcast_length {shapes : List (List Nat)} {B : List Nat} (hB : IsBroadcast shapes B) :
    B.length = maxNdim shapes := by
  apply Nat.le_antisymm
  · rcases hB.rank_le with h | ⟨s, hs, h⟩
    · omega
    · rw [← h]; exact length_le_maxNdim hs
  · exact maxNdim_le.2 hB.rank_ge

theorem maxDim_eq {α : Type _} {args : List (Arr α)} {B : List Nat}
    (hB : IsBroadcast (args.map (·.shape)) B) :
    args.foldl (fun m X => max m X.shape.length) 0 = B.length := by
  rw [isBroadcast_length hB, maxNdim, List.foldl_map]

theorem prodAt_congr {α : Type _} [CommSemiring α] {args : List (Arr α)} {B : List Nat}
    (hB : IsBroadcast (args.map (·.shape)) B) {c c' : Nat → Nat}
    (h : ∀ k, axisLen B k ≠ 1 → c k = c' k) : prodAt args c = prodAt args c' := by
  unfold prodAt
  congr 1
  apply List.map_congr_left
  intro X hX
  apply X.at_congr
  intro k hk
  apply h
  have := hB.fits k _ (List.mem_map_of_mem hX)
  omega

theorem sumMultiply_keepdims {α : Type} [CommSemiring α] {args : List (Arr α)} {B : List Nat}
    (hne : args ≠ []) (hB : IsBroadcast (args.map (·.shape)) B) {axis : AxisArg} {sumaxis : Bool}
    {out : List Nat} (hout : keptAxes B.length axis sumaxis = .ok out)
    (hsort : out = (List.range B.length).filter (· ∈ out)) :
    ∃ z, sumMultiply args axis sumaxis true = .ok z ∧
      z.shape = (List.range B.length).map
        (fun p => if p ∈ out then axisLen B (B.length - 1 - p) else 1) ∧
      ∀ c, ValidIn z.shape c →
        z.get c = sumAxes (selAxes B (fun k => decide (B.length - 1 - k ∉ out))) (prodAt args) c := by
  have hnd : out.Nodup := by rw [hsort]; exact List.nodup_range.filter _
  have hlt : ∀ l ∈ out, l < B.length := by
    intro l hl; rw [hsort] at hl; simpa using (List.mem_filter.1 hl).1
  obtain ⟨y, hy1, hy2, hy3⟩ := npEinsum_aligned hB hnd hlt
  obtain ⟨z, hz1, hz2, hz3⟩ := keepdims_reshape hsort hy2
  refine ⟨z, ?_, hz2, ?_⟩
  · unfold sumMultiply
    rw [if_neg (by simpa using hne)]
    simp only [maxDim_eq hB]
    rw [hout]
    show (npEinsum (args.map fun X => (X, alignedLabels B.length X)) out >>= _) = _
    rw [hy1]
    exact hz1
  · intro c hc
    obtain ⟨c', hc1, hc2⟩ := hz3 c hc
    rw [hc1, hy3]
    apply sumAxes_base
    intro k hk
    by_cases hk2 : k < B.length
    · rw [selAxes_keys] at hk
      have : B.length - 1 - k ∈ out := by
        by_contra hno
        apply hk
        simp [hk2, hno]
      rw [if_pos ⟨hk2, this⟩, hc2 k hk2 this]
    · rw [if_neg (fun h => hk2 h.1)]
      have := hc k
      rw [axisLen_of_ge (by rw [hz2]; simp; omega)] at this
      omega

theorem sumMultiply_nokeepdims {α : Type} [CommSemiring α] {args : List (Arr α)} {B : List Nat}
    (hne : args ≠ []) (hB : IsBroadcast (args.map (·.shape)) B) {axis : AxisArg} {sumaxis : Bool}
    {out : List Nat} (hout : keptAxes B.length axis sumaxis = .ok out)
    (hnd : out.Nodup) (hlt : ∀ l ∈ out, l < B.length) :
    ∃ y, sumMultiply args axis sumaxis false = .ok y ∧
      y.shape = out.map (fun l => axisLen B (B.length - 1 - l)) ∧
      ∀ c, y.get c = sumAxes (selAxes B (fun k => decide (B.length - 1 - k ∉ out))) (prodAt args)
        (fun k => if k < B.length ∧ B.length - 1 - k ∈ out then
          c (out.length - 1 - out.idxOf (B.length - 1 - k)) else 0) := by
  obtain ⟨y, hy1, hy2, hy3⟩ := npEinsum_aligned hB hnd hlt
  refine ⟨y, ?_, hy2, hy3⟩
  unfold sumMultiply
  rw [if_neg (by simpa using hne)]
  simp only [maxDim_eq hB]
  rw [hout]
  show (npEinsum (args.map fun X => (X, alignedLabels B.length X)) out >>= _) = _
  rw [hy1]
  rfl

/-- Incompatible shapes make `sum_multiply` raise whatever the axes are. -/
theorem npEinsum_incompatible {α : Type} [CommSemiring α] {args : List (Arr α)}
    (hB : ¬ Compatible (args.map (·.shape))) (out : List Nat) (M : Nat)
    (hM : M = args.foldl (fun m X => max m X.shape.length) 0) :
    npEinsum (args.map fun X => (X, alignedLabels M X)) out = .error .valueError := by
  have hMle : ∀ X ∈ args, X.shape.length ≤ M := by
    intro X hX
    have h1 : M = maxNdim (args.map (·.shape)) := by rw [hM, maxNdim, List.foldl_map]
    rw [h1]
    exact length_le_maxNdim (List.mem_map_of_mem hX)
  unfold npEinsum
  rw [if_neg (by
    simp only [not_not]
    intro op hop
    simp only [List.mem_map] at hop
    obtain ⟨X, _, rfl⟩ := hop
    simp [alignedLabels])]
  by_cases h2 : out.Nodup ∧ ∀ l ∈ out, l ∈ einsumLabels (args.map fun X => (X, alignedLabels M X))
  swap
  · rw [if_pos h2]; rfl
  rw [if_neg (not_not.2 h2)]
  have h3 : ((einsumLabels (args.map fun X => (X, alignedLabels M X))).mapM fun l => do
      return (l, ← einsumUnify (einsumLens (args.map fun X => (X, alignedLabels M X)) l)))
      = Except.error .valueError := by
    apply mapM_error_of
    · intro l _ e' h
      cases hu : einsumUnify (einsumLens (args.map fun X => (X, alignedLabels M X)) l) with
      | ok v => simp [hu, bind, Except.bind, pure, Except.pure] at h
      | error e'' =>
        simp only [hu, bind, Except.bind] at h
        cases h
        exact einsumUnify_error hu
    · unfold Compatible at hB
      simp only [not_forall, not_or] at hB
      obtain ⟨k, s, hs, t, ht, h1, h2, h3⟩ := hB
      obtain ⟨X, hX, rfl⟩ := List.mem_map.1 hs
      obtain ⟨Y, hY, rfl⟩ := List.mem_map.1 ht
      have hk1 : k < X.shape.length := by
        by_contra hc; exact h1 (axisLen_of_ge (by omega))
      have hk2 : k < Y.shape.length := by
        by_contra hc; exact h2 (axisLen_of_ge (by omega))
      have hkM : k < M := by have := hMle X hX; omega
      refine ⟨M - 1 - k, ?_, .valueError, ?_⟩
      · unfold einsumLabels
        simp only [List.mem_dedup, List.mem_flatMap, List.mem_map]
        refine ⟨_, ⟨X, hX, rfl⟩, ?_⟩
        have := hMle X hX
        simp [alignedLabels]
        exact ⟨X.shape.length - 1 - k, by omega, by omega⟩
      · cases hu : einsumUnify
            (einsumLens (args.map fun X => (X, alignedLabels M X)) (M - 1 - k)) with
        | error e => rw [einsumUnify_error hu]; rfl
        | ok v =>
          exfalso
          have := (einsumUnify_ok.1 hu).1
          have a1 := this _ ((mem_einsumLens_aligned hMle hkM).2 ⟨X, hX, hk1, rfl⟩)
          have a2 := this _ ((mem_einsumLens_aligned hMle hkM).2 ⟨Y, hY, hk2, rfl⟩)
          omega
  rw [h3]
  rfl

/-! ## The kept axes -/

theorem keptAxes_sum_seq (M : Nat) (as : List Int) :
    keptAxes M (.seq as) true
      = .ok ((List.range M).filter fun p => decide (¬ ∃ a ∈ as, Names M a p)) := by
  unfold keptAxes
  simp only [if_true, pure, Except.pure, bind, Except.bind]
  rw [if_neg]
  · congr 1
    rw [List.filter_map, List.map_map]
    have : (Int.toNat ∘ Int.ofNat) = id := by funext n; simp
    rw [this, List.map_id]
    apply List.filter_congr
    intro p _
    simp only [comp, Names]
    apply decide_eq_decide.2
    constructor
    · rintro ⟨h1, h2⟩ ⟨a, ha, h3 | h3⟩
      · apply h1; rw [h3] at ha; simpa using ha
      · apply h2
        have : -(M : Int) + Int.ofNat p = a := by rw [h3]; simp; omega
        rw [this]; exact ha
    · intro h
      refine ⟨fun h1 => h ⟨_, h1, .inl rfl⟩, fun h2 => h ⟨_, h2, .inr ?_⟩⟩
      simp; omega
  · simp only [not_exists, not_and, not_or, List.mem_filter, List.mem_map, List.mem_range]
    rintro i ⟨⟨p, hp, rfl⟩, _⟩
    simp; omega

theorem keptAxes_sum_scalar (M : Nat) (a : Int) :
    keptAxes M (.scalar a) true = keptAxes M (.seq [a]) true := rfl

theorem keptAxes_sum_none (M : Nat) : keptAxes M .none true = .ok [] := rfl

theorem keptAxes_keep_none (M : Nat) : keptAxes M .none false = .ok (List.range M) := by
  unfold keptAxes
  simp only [Bool.false_eq_true, if_false, pure, Except.pure, bind, Except.bind]
  rw [if_neg]
  · rw [List.map_map]
    have : (Int.toNat ∘ Int.ofNat) = id := by funext n; simp
    rw [this, List.map_id]
  · simp only [not_exists, not_and, not_or, List.mem_map, List.mem_range]
    rintro i ⟨p, hp, rfl⟩
    simp; omega

/-- Normalisation of an axis number. -/
def normAxis (M : Nat) (i : Int) : Int := if i ≥ 0 then i else i + M

theorem keptAxes_keep_seq (M : Nat) (as : List Int) :
    keptAxes M (.seq as) false =
      if ∀ a ∈ as, 0 ≤ normAxis M a ∧ normAxis M a < M then
        .ok (((as.map (normAxis M)).mergeSort).map Int.toNat)
      else .error .valueError := by
  unfold keptAxes
  simp only [Bool.false_eq_true, if_false, pure, Except.pure, bind, Except.bind]
  have hp : ∀ i, i ∈ ((as.map fun i : Int => if i ≥ 0 then i else i + (M : Int)).mergeSort)
      ↔ ∃ a ∈ as, normAxis M a = i := by
    intro i
    rw [(List.mergeSort_perm _ _).mem_iff]
    simp [normAxis]
  by_cases h : ∀ a ∈ as, 0 ≤ normAxis M a ∧ normAxis M a < M
  · rw [if_pos h, if_neg]
    · rfl
    · rintro ⟨i, hi, h2⟩
      obtain ⟨a, ha, rfl⟩ := (hp i).1 hi
      have := h a ha
      omega
  · rw [if_neg h, if_pos]
    · rfl
    · simp only [not_forall] at h
      obtain ⟨a, ha, h2⟩ := h
      exact ⟨_, (hp _).2 ⟨a, ha, rfl⟩, by omega⟩

end Verif
