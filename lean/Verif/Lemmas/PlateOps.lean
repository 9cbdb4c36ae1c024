import Verif.Props.LinalgAxes
import Verif.Props.Add
import Verif.Props.Gradient

/-!
# Operations on arrays of vectors and matrices, read on the plates of a node

The plates of every operand broadcast to the plates `P` of a node; the result of every operation has such plates too, and its
value at a plate `p` of `P` is computed from the operands at `p`.
-/

namespace Verif
open Spec Matrix

section
variable {P s t : List Nat} {A B X Y : Arr ℝ}

theorem BroadcastsTo_refl (P : List Nat) : BroadcastsTo P P := ⟨le_rfl, fun _ => .inr rfl⟩

theorem BroadcastsTo.trans' {a b c : List Nat} (h : BroadcastsTo a b) (h' : BroadcastsTo b c) : BroadcastsTo a c :=
  ⟨h.1.trans h'.1, fun k => by
    rcases h.2 k with h1 | h1
    · exact .inl h1
    · rw [h1]; exact h'.2 k⟩

theorem vectorOf_wider {α : Type} {X : Arr α} {pa Q p q : List Nat} (hX : X.shape = pa ++ s) (ha : BroadcastsTo pa Q)
    (hq : coord q = restrict Q (coord p)) : vectorOf X p s = vectorOf X q s := by
  funext i
  rw [vectorOf_joinC, vectorOf_joinC]
  apply X.at_congr
  intro l hl
  by_cases h1 : l < s.length
  · rw [joinC_lt _ _ h1, joinC_lt _ _ h1]
  · rw [joinC_ge _ _ h1, joinC_ge _ _ h1, hq]
    unfold restrict
    rw [if_neg]
    intro h3
    apply hl
    rw [hX, axisLen_append, if_neg h1]
    rcases ha.2 (l - s.length) with h4 | h4
    · exact h4
    · rw [h4, h3]

theorem at_wider {X : Arr ℝ} {Q p q : List Nat} (ha : BroadcastsTo X.shape Q) (hq : coord q = restrict Q (coord p)) :
    X.at (coord p) = X.at (coord q) := by
  have h := congrFun (vectorOf_wider (X := X) (pa := X.shape) (s := []) (p := p) (q := q) (by simp) ha hq)
    (default : MultiIndex [])
  have e : ((default : MultiIndex []).1 : List Nat) = [] := mem_indices_nil.1 (multi_mem _)
  simpa [vectorOf, e] using h

theorem common_plates {pa pb : List Nat} (ha : BroadcastsTo pa P) (hb : BroadcastsTo pb P) :
    ∃ Q, IsBroadcast [pa, pb] Q ∧ BroadcastsTo Q P := isBroadcast_of_common ha hb

theorem po_outer (hA : PlatesDims A.shape P s) (hB : PlatesDims B.shape P t) (hst : s.length = t.length) :
    ∃ Y, linOuter A B s.length = .ok Y ∧ PlatesDims Y.shape P (s ++ t) ∧
      ∀ p ∈ indices P, matrixOf Y p s t = vecMulVec (vectorOf A p s) (vectorOf B p t) := by
  obtain ⟨pa, hA, ha⟩ := hA
  obtain ⟨pb, hB, hb⟩ := hB
  obtain ⟨Q, hQ, hQP⟩ := common_plates ha hb
  obtain ⟨Y, h1, h2, h3⟩ := C79_outer hA hB hst hQ
  refine ⟨Y, h1, ⟨Q, by rw [h2, List.append_assoc], hQP⟩, fun p hp => ?_⟩
  obtain ⟨q, hq, e⟩ := exists_restrict hQP.2 hp
  rw [matrixOf_wider h2 (BroadcastsTo_refl Q) e, vectorOf_wider hA (IsBroadcast.to hQ (by simp)) e,
    vectorOf_wider hB (IsBroadcast.to hQ (by simp)) e]
  exact h3 q hq

theorem po_inner (hA : PlatesDims A.shape P s) (hB : PlatesDims B.shape P s) :
    ∃ y, linInner [A, B] s.length = .ok y ∧ BroadcastsTo y.shape P ∧
      ∀ p ∈ indices P, y.at (coord p) = vectorOf A p s ⬝ᵥ vectorOf B p s := by
  obtain ⟨pa, hA, ha⟩ := hA
  obtain ⟨pb, hB, hb⟩ := hB
  obtain ⟨Q, hQ, hQP⟩ := common_plates ha hb
  obtain ⟨Y, h1, h2, h3⟩ := C79_inner (args := [A, B]) (pls := [pa, pb]) (s := s) (by simp) (by simp [hA, hB]) hQ
  refine ⟨Y, h1, by rwa [h2], fun p hp => ?_⟩
  obtain ⟨q, hq, e⟩ := exists_restrict hQP.2 hp
  rw [vectorOf_wider hA (IsBroadcast.to hQ (by simp)) e, vectorOf_wider hB (IsBroadcast.to hQ (by simp)) e,
    at_wider (Q := Q) (by rw [h2]; exact BroadcastsTo_refl Q) e, h3 q hq]
  simp [dotProduct]

theorem po_mvdot (hA : PlatesDims A.shape P (s ++ t)) (hB : PlatesDims B.shape P t) (hst : s.length = t.length) :
    ∃ Y, linMvdot A B s.length = .ok Y ∧ PlatesDims Y.shape P s ∧
      ∀ p ∈ indices P, vectorOf Y p s = matrixOf A p s t *ᵥ vectorOf B p t := by
  obtain ⟨pa, hA, ha⟩ := hA
  obtain ⟨pb, hB, hb⟩ := hB
  obtain ⟨Q, hQ, hQP⟩ := common_plates ha hb
  rw [← List.append_assoc] at hA
  obtain ⟨Y, h1, h2, h3⟩ := C79_mvdot hA hB hst hQ
  refine ⟨Y, h1, ⟨Q, h2, hQP⟩, fun p hp => ?_⟩
  obtain ⟨q, hq, e⟩ := exists_restrict hQP.2 hp
  rw [matrixOf_wider hA (IsBroadcast.to hQ (by simp)) e, vectorOf_wider h2 (BroadcastsTo_refl Q) e,
    vectorOf_wider hB (IsBroadcast.to hQ (by simp)) e]
  exact h3 q hq

theorem po_mmdot (hA : PlatesDims A.shape P (s ++ s)) (hB : PlatesDims B.shape P (s ++ s)) (hs : s.length ≤ 1) :
    ∃ Y, mmDot A B s.length = .ok Y ∧ PlatesDims Y.shape P (s ++ s) ∧
      ∀ p ∈ indices P, matrixOf Y p s s = matrixOf A p s s * matrixOf B p s s := by
  obtain ⟨pa, hA, ha⟩ := hA
  obtain ⟨pb, hB, hb⟩ := hB
  obtain ⟨Q, hQ, hQP⟩ := common_plates ha hb
  rw [← List.append_assoc] at hA hB
  obtain ⟨Y, h1, h2, h3⟩ := C79_mmdot_partial (d := s.length) rfl rfl rfl hs hA hB hQ
  refine ⟨Y, h1, ⟨Q, by rw [h2, List.append_assoc], hQP⟩, fun p hp => ?_⟩
  obtain ⟨q, hq, e⟩ := exists_restrict hQP.2 hp
  rw [matrixOf_wider hA (IsBroadcast.to hQ (by simp)) e, matrixOf_wider h2 (BroadcastsTo_refl Q) e,
    matrixOf_wider hB (IsBroadcast.to hQ (by simp)) e]
  exact h3 q hq

theorem po_transpose (hA : PlatesDims A.shape P (s ++ t)) (hst : s.length = t.length) :
    ∃ Y, linTranspose A s.length = .ok Y ∧ PlatesDims Y.shape P (t ++ s) ∧
      ∀ p ∈ indices P, matrixOf Y p t s = (matrixOf A p s t)ᵀ := by
  obtain ⟨pa, hA, ha⟩ := hA
  rw [← List.append_assoc] at hA
  obtain ⟨Y, h1, h2, h3⟩ := C79_transpose hA hst
  refine ⟨Y, h1, ⟨pa, by rw [h2, List.append_assoc], ha⟩, fun p hp => ?_⟩
  obtain ⟨q, hq, e⟩ := exists_restrict ha.2 hp
  rw [matrixOf_wider hA (BroadcastsTo_refl pa) e, matrixOf_wider h2 (BroadcastsTo_refl pa) e]
  exact h3 q hq

theorem po_add (hX : PlatesDims X.shape P s) (hY : PlatesDims Y.shape P s) :
    ∃ r, npAdd X Y = .ok r ∧ PlatesDims r.shape P s ∧ ∀ c, r.at c = X.at c + Y.at c := npAdd_platesDims hX hY

theorem po_mul (hX : PlatesDims X.shape P s) (hY : PlatesDims Y.shape P s) :
    ∃ r, npMul X Y = .ok r ∧ PlatesDims r.shape P s ∧ ∀ c, r.at c = X.at c * Y.at c := by
  obtain ⟨r, hr, hB, hb, hat⟩ := npMul_common hX.broadcastsTo hY.broadcastsTo
  exact ⟨r, hr, platesDims_of_isBroadcast hB hb (by simp) hX, hat⟩

/-- an operand without the last axes -/
theorem po_mul_left (hX : PlatesDims X.shape P s) (hY : BroadcastsTo Y.shape (P ++ s)) :
    ∃ r, npMul X Y = .ok r ∧ PlatesDims r.shape P s ∧ ∀ c, r.at c = X.at c * Y.at c := by
  obtain ⟨r, hr, hB, hb, hat⟩ := npMul_common hX.broadcastsTo hY
  exact ⟨r, hr, platesDims_of_isBroadcast hB hb (by simp) hX, hat⟩

theorem po_sub (hX : PlatesDims X.shape P s) (hY : PlatesDims Y.shape P s) :
    ∃ r, npSub X Y = .ok r ∧ PlatesDims r.shape P s ∧ ∀ c, r.at c = X.at c - Y.at c := by
  obtain ⟨S, hB, hb⟩ := isBroadcast_of_common hX.broadcastsTo hY.broadcastsTo
  obtain ⟨r, hr, _, hat⟩ := npSub_common hX.broadcastsTo hY.broadcastsTo
  have hS : r.shape = S := by
    unfold npSub at hr
    rw [(broadcastedShape_ok _ _).2 hB] at hr
    exact (congrArg Arr.shape (Except.ok.inj hr)).symm
  exact ⟨r, hr, by rw [hS]; exact platesDims_of_isBroadcast hB hb (by simp) hX, hat⟩

theorem scaleBy_at (a : ℝ) (X : Arr ℝ) (c : Nat → Nat) : (npScaleBy a X).at c = a * X.at c := rfl

theorem vectorOf_scaleBy (a : ℝ) (X : Arr ℝ) (p s : List Nat) : vectorOf (npScaleBy a X) p s = a • vectorOf X p s := rfl

theorem matrixOf_scaleBy (a : ℝ) (X : Arr ℝ) (p s t : List Nat) : matrixOf (npScaleBy a X) p s t = a • matrixOf X p s t := rfl

theorem po_scale (a : ℝ) (hX : PlatesDims X.shape P s) : PlatesDims (npScaleBy a X).shape P s := hX

theorem trailing_shape {n : Nat} (hX : BroadcastsTo X.shape P) (hn : s.length = n) : BroadcastsTo (addTrailingAxes X n).shape (P ++ s) := by
  have : PlatesDims (addTrailingAxes X n).shape P (List.replicate n 1) := ⟨X.shape, rfl, hX⟩
  refine BroadcastsTo.trans' this.broadcastsTo ⟨by simp [hn], fun k => ?_⟩
  rw [axisLen_append, axisLen_append, List.length_replicate, hn]
  by_cases hk : k < n
  · rw [if_pos hk, axisLen_replicate_one]; exact .inl rfl
  · rw [if_neg hk, if_neg hk]; exact .inr rfl

theorem trailing_at {n : Nat} {p i : List Nat} (hi : i.length = n) : (addTrailingAxes X n).at (coord (p ++ i)) = X.at (coord p) := by
  show X.get _ = X.get _
  congr 1
  funext k
  show (if axisLen (X.shape ++ List.replicate n 1) (k + n) = 1 then 0 else coord (p ++ i) (k + n)) = restrict X.shape (coord p) k
  have e : axisLen (X.shape ++ List.replicate n 1) (k + n) = axisLen X.shape k := by
    rw [axisLen_append, List.length_replicate, if_neg (by omega), Nat.add_sub_cancel]
  rw [e, coord_joinC, hi, joinC_ge _ _ (by omega), Nat.add_sub_cancel]
  rfl

end

end Verif
