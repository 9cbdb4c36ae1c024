import Verif.Props.ChainArrays
import Verif.Props.RotateGamma

/-!
# C82, continued: matrices over several axes and the rotation of a plate axis
-/

namespace Verif
open Spec Matrix

section
variable {P a b s t pa pb : List Nat} {m n N : Nat} {R X C Q : Arr ℝ}

/-- **C82 fails for `rotate_covariance` with a matrix that has plates**: the rotation from the right uses the matrix of the plate with
the number of the row.  Here the second matrix is twice the unit matrix, and the covariance on the first plate is changed. -/
theorem C82_rotate_covariance_plates_refuted :
    ∃ R C Y : Arr ℝ, R.shape = [2, 2, 2] ∧ C.shape = [2, 2, 2] ∧ rotateCovArr C R (-1) 1 = .ok Y ∧
      Y.at (coord [0, 1, 1]) ≠ ∑ j ∈ Finset.range 2, ∑ j' ∈ Finset.range 2,
        R.at (coord [0, 1, j]) * R.at (coord [0, 1, j']) * C.at (coord [0, j, j']) := by
  let R : Arr ℝ := ⟨[2, 2, 2], fun c => if c 0 = c 1 then (c 2 : ℝ) + 1 else 0⟩
  let C : Arr ℝ := ⟨[2, 2, 2], fun c => if c 0 = c 1 then 1 else 0⟩
  obtain ⟨L, h1, h2, h3⟩ := rotateEinsum_ok (X := C) (R := R) (pa := [2]) (pr := [2]) (b := [2]) (m := 2) (n := 2) rfl rfl
    (isBroadcast_self [2])
  have hP : IsBroadcast [[2], [2, 2]] [2, 2] := by
    refine ⟨by decide, by decide, fun k s hs => ?_, fun k => ?_⟩
    · simp only [List.mem_cons, List.not_mem_nil, or_false] at hs
      rcases hs with rfl | rfl
      · match k with
        | 0 => exact .inr rfl
        | k + 1 => left; simp [axisLen]
      · exact .inr rfl
    · exact .inr ⟨[2, 2], by simp, rfl⟩
  obtain ⟨Y, k1, k2, k3⟩ := rotateEinsum_ok (X := L) (R := R) (pa := [2, 2]) (pr := [2]) (b := []) (m := 2) (n := 2)
    (by rw [h2]; rfl) rfl hP
  refine ⟨R, C, Y, rfl, rfl, ?_, ?_⟩
  · unfold rotateCovArr leftRotateArr rightRotateArr
    have e : axisBack (-1) 1 = .ok 1 := rfl
    simp only [e, bind, Except.bind]
    rw [show 1 + 1 = [2].length + 1 from rfl, h1]
    exact k1
  · have := k3 [0, 1] (by decide) 1 (by decide) [] (by decide)
    simp only [List.cons_append, List.nil_append] at this
    rw [this]
    have h := fun j hj => h3 [0] (by decide) 1 (by decide) [j] (mem_indices_cons.2 ⟨hj, mem_indices_nil.2 rfl⟩)
    simp only [List.cons_append, List.nil_append] at h
    rw [Finset.sum_range_succ, Finset.sum_range_succ, Finset.sum_range_zero, h 0 (by decide), h 1 (by decide)]
    simp [Finset.sum_range_succ, R, C, Arr.at, restrict, axisLen, coord]

theorem matrixDotVector_exact {A x : Arr ℝ} {pl px Q : List Nat} (hA : A.shape = pl ++ (s ++ s)) (hx : x.shape = px ++ s)
    (hQ : IsBroadcast [pl, px] Q) :
    ∃ y, matrixDotVector A x s.length = .ok y ∧ y.shape = Q ++ s ∧
      ∀ q ∈ indices Q, vectorOf y q s = matrixOf A q s s *ᵥ vectorOf x q s := by
  have ha : BroadcastsTo pl Q := IsBroadcast.to hQ (by simp)
  have hp : BroadcastsTo px Q := IsBroadcast.to hQ (by simp)
  rcases eq_or_ne s [] with rfl | hs
  · obtain ⟨y, h1, h2, h3, h4⟩ := npMul_common (X := A) (Y := x) (B := Q) (by simpa [hA] using ha) (by simpa [hx] using hp)
    refine ⟨y, by unfold matrixDotVector; rw [if_pos List.length_nil]; exact h1, ?_, fun p hp => ?_⟩
    · rw [isBroadcast_unique h2 (by simpa [hA, hx] using hQ), List.append_nil]
    funext i
    have ei : i.1 = [] := mem_indices_nil.1 (multi_mem i)
    have u : ∀ j : MultiIndex [], j = i := fun j => Subtype.ext ((mem_indices_nil.1 (multi_mem j)).trans ei.symm)
    simp only [mulVec, dotProduct]
    rw [Fintype.sum_eq_single i (fun j hj => absurd (u j) hj)]
    simp only [vectorOf, matrixOf, of_apply, ei, List.append_nil, h4]
  · obtain ⟨A', a1, a2, a3⟩ := flatten_mat hA ha
    obtain ⟨x', b1, b2, b3⟩ := flatten_vec hx hp
    obtain ⟨y', c1, c2, c3⟩ := matVec_exact (L := A') (x := x') (n := s.prod) a2 b2 hQ
    obtain ⟨y, d1, d2, d3⟩ := unflatten_vec c2 (BroadcastsTo_refl Q)
    refine ⟨y, ?_, d2, fun p hp => ?_⟩
    · unfold matrixDotVector
      rw [if_neg (by simpa using hs)]
      have e1 : trailingShape x.shape s.length = s := by rw [hx, trailing_append]
      have e2 : trailingShape A.shape s.length = s := by rw [hA, ← List.append_assoc, trailing_append]
      have e3 : A.shape.take (A.shape.length - 2 * s.length) = pl := by rw [hA, List.take_left']; simp; omega
      have e4 : x.shape.take (x.shape.length - s.length) = px := by rw [hx, List.take_left']; simp
      have e5 : y'.shape.take (y'.shape.length - 1) = Q := by rw [c2, List.take_left']; simp
      simp only [e1, e2, e3, e4, a1, b1, c1, e5, bind, Except.bind]
      exact d1
    · have h := c3 p hp
      rw [d3 p hp, a3 p hp, b3 p hp] at h
      funext i
      obtain ⟨j, rfl⟩ := (flatIx s).surjective i
      have := congrFun h j
      simp only [Function.comp_apply, mulVec, dotProduct, submatrix_apply] at this ⊢
      rw [this, ← (flatIx s).sum_comp]

/-- **C82** `matrix_dot_vector` multiplies the vectors over the axes of the variable by the matrices, on every plate. -/
theorem C82_matrix_dot_vector {A x : Arr ℝ} (hA : PlatesDims A.shape P (s ++ s)) (hx : PlatesDims x.shape P s) :
    ∃ y, matrixDotVector A x s.length = .ok y ∧ PlatesDims y.shape P s ∧
      ∀ p ∈ indices P, vectorOf y p s = matrixOf A p s s *ᵥ vectorOf x p s := by
  obtain ⟨pl, hA, hl⟩ := hA
  obtain ⟨px, hx, hp⟩ := hx
  obtain ⟨Q, hQ, hQP⟩ := common_plates hl hp
  obtain ⟨y, h1, h2, h3⟩ := matrixDotVector_exact hA hx hQ
  rw [← List.append_assoc] at hA
  refine ⟨y, h1, ⟨Q, h2, hQP⟩, fun p hp => ?_⟩
  obtain ⟨q, hq, e⟩ := exists_restrict hQP.2 hp
  rw [matrixOf_wider hA (IsBroadcast.to hQ (by simp)) e, vectorOf_wider h2 (BroadcastsTo_refl Q) e,
    vectorOf_wider hx (IsBroadcast.to hQ (by simp)) e]
  exact h3 q hq

/-- **C82** `transpose_covariance` transposes the matrix on every plate. -/
theorem C82_transpose_covariance (hC : PlatesDims C.shape P (s ++ t)) (hst : s.length = t.length) :
    ∃ Y, transposeCovArr C s.length = .ok Y ∧ PlatesDims Y.shape P (t ++ s) ∧
      ∀ p ∈ indices P, matrixOf Y p t s = (matrixOf C p s t)ᵀ := by
  obtain ⟨S, hC, hS⟩ := hC
  set n := s.length with hn
  have hd : downTo (2 * n) = (downTo (2 * n)).take n ++ downTo n := by
    conv_lhs => rw [← List.take_append_drop n (downTo (2 * n))]
    congr 1
    apply List.ext_getElem
    · simp [downTo]; omega
    · intro i h1 h2
      simp only [downTo, List.length_drop, List.length_map, List.length_reverse, List.length_range] at h1 h2
      simp only [downTo, List.getElem_drop, List.getElem_map, List.getElem_reverse, List.getElem_range, List.length_range]
      omega
  have hl : (s ++ t).length = 2 * n := by simp [← hst, ← hn]; omega
  have dl : C.shape.length - (downTo (2 * n)).length = S.length := by rw [hC, downTo_length, ← hl]; simp
  have dr : C.shape.drop (C.shape.length - (downTo (2 * n)).length) = s ++ t := by rw [dl, hC, List.drop_left' rfl]
  have tl : ((downTo (2 * n)).take n).length = n := by rw [List.length_take, downTo_length]; omega
  have ml := downTo_map_axisLen (s ++ t)
  rw [hl, hd, List.map_append] at ml
  obtain ⟨ms, mt⟩ := List.append_inj ml (by rw [List.length_map, tl])
  have nd := downTo_nodup (2 * n)
  rw [hd] at nd
  have memO : ∀ k, k ∈ downTo n ++ (downTo (2 * n)).take n ↔ k ∈ downTo (2 * n) := by
    intro k
    conv_rhs => rw [hd]
    simp only [List.mem_append]
    tauto
  obtain ⟨Y, h1, h2, h3⟩ := npEinsumEll_ok [(C, downTo (2 * n))] (downTo n ++ (downTo (2 * n)).take n)
    (fun l => axisLen (s ++ t) (l - 1)) [] S (by simp [hC, downTo_length, ← hst, ← hn]; omega) (by
      simp only [List.map_cons, List.map_nil]
      rw [dl, hC, List.take_left' rfl]
      exact ⟨by simp, .inr ⟨S, by simp, rfl⟩, by simp, fun k => .inr ⟨S, by simp, rfl⟩⟩) (by
      intro op hop q hq
      obtain rfl := List.mem_singleton.1 hop
      rw [dr, ← hl] at hq
      exact .inr (zip_downTo hq)) (by
      rintro k ⟨op, hop, hk⟩
      obtain rfl := List.mem_singleton.1 hop
      refine .inr ⟨_, hop, ?_⟩
      rw [dr, ← hl]
      rw [← hl] at hk
      exact mem_zip_downTo hk) (List.nodup_append_comm.1 nd) (fun k hk => ⟨_, List.mem_singleton.2 rfl, (memO k).1 hk⟩) (by simp) (by
      intro k
      simp only [List.not_mem_nil, false_iff, not_and, not_not]
      rintro ⟨op, hop, hk⟩
      obtain rfl := List.mem_singleton.1 hop
      exact (memO k).2 hk)
  rw [List.map_append, ms, mt] at h2
  refine ⟨Y, h1, ⟨S, h2, hS⟩, fun p hp => ?_⟩
  obtain ⟨q, hq, e⟩ := exists_restrict hS.2 hp
  rw [matrixOf_wider (X := Y) (by rw [h2, List.append_assoc]) (BroadcastsTo_refl S) e,
    matrixOf_wider (X := C) (by rw [hC, List.append_assoc]) (BroadcastsTo_refl S) e]
  ext i j
  have lj := length_of_mem_indices (multi_mem j)
  have li := length_of_mem_indices (multi_mem i)
  have hji : j.1 ++ i.1 ∈ indices (s ++ t) := append_mem_indices (multi_mem j) (multi_mem i)
  have mc := downTo_map_coord (j.1 ++ i.1)
  rw [length_of_mem_indices hji, hl, hd, List.map_append] at mc
  obtain ⟨mj, mi⟩ := List.append_inj mc (by rw [List.length_map, tl, lj])
  have h := h3 (coord q) (fun l => coord (j.1 ++ i.1) (l - 1)) (coord_valid hq) (fun k _ => coord_valid hji (k - 1))
  rw [List.map_append, mj, mi] at h
  simp only [List.map_nil, sumKeys, List.map_cons, List.prod_cons, List.prod_nil, mul_one] at h
  rw [show (downTo (2 * n)).map (fun l => coord (j.1 ++ i.1) (l - 1)) = j.1 ++ i.1 by
    conv_lhs => rw [hd, List.map_append, mj, mi]] at h
  simp only [matrixOf, of_apply, transpose_apply, List.append_assoc]
  rw [coord_joinC, coord_joinC q (j.1 ++ i.1)]
  convert h using 3
  · rw [List.length_append, List.length_append, tl, downTo_length, li, lj, ← hst]
  · rw [downTo_length, length_of_mem_indices hji, hl]

theorem plateAxisBack_ok {axis : Int} (h : axis = pa.length ∨ axis = -((pb.length : Int) + 1)) :
    plateAxisBack axis (pa ++ N :: pb).length = .ok (pb.length + 1) := by
  unfold plateAxisBack
  have e : (if axis ≥ 0 then axis - ((pa ++ N :: pb).length : Int) else axis) = -((pb.length : Int) + 1) := by
    simp only [List.length_append, List.length_cons]
    push_cast
    split <;> omega
  simp only [e]
  rw [if_neg (by simp only [List.length_append, List.length_cons]; push_cast; omega)]
  congr 1

theorem plateAxisBack_raises {axis : Int} {k : Nat} (h : axis < -(k : Int) ∨ axis ≥ k) : plateAxisBack axis k = .error .valueError := by
  unfold plateAxisBack
  simp only
  rw [if_pos]
  split <;> omega

theorem broadcastsTo_cancel (h : BroadcastsTo (a ++ t) (b ++ t)) : BroadcastsTo a b := by
  obtain ⟨h1, h2⟩ := h
  refine ⟨by simpa using h1, fun k => ?_⟩
  have := h2 (k + t.length)
  rwa [axisLen_append, axisLen_append, if_neg (by omega), if_neg (by omega), Nat.add_sub_cancel] at this

theorem moments_wider {Q : List Nat} {phi0 phi1 u0 u1 g : Arr ℝ} (h0 : PlatesDims phi0.shape Q s) (h1 : PlatesDims phi1.shape Q (s ++ s))
    (h2 : PlatesDims u0.shape Q s) (h3 : PlatesDims u1.shape Q (s ++ s)) (hg : BroadcastsTo g.shape Q) (hQ : BroadcastsTo Q P)
    (h : ∀ q ∈ indices Q, GaussianMomentsOn s q phi0 phi1 u0 u1 g) : GaussNodeOn P s phi0 phi1 u0 u1 g := by
  have w : ∀ {sh d : List Nat}, PlatesDims sh Q d → PlatesDims sh P d := fun ⟨S, e, hS⟩ => ⟨S, e, BroadcastsTo.trans' hS hQ⟩
  refine ⟨w h0, w h1, w h2, w h3, BroadcastsTo.trans' hg hQ, fun p hp => ?_⟩
  obtain ⟨q, hq, e⟩ := exists_restrict hQ.2 hp
  obtain ⟨S0, h0, b0⟩ := h0
  obtain ⟨S1, h1, b1⟩ := h1
  obtain ⟨S2, h2, b2⟩ := h2
  obtain ⟨S3, h3, b3⟩ := h3
  have hm := h q hq
  have e0 := vectorOf_wider h0 b0 e
  have e1 := matrixOf_wider (by rw [h1, List.append_assoc]) b1 e (X := phi1)
  have e2 := vectorOf_wider h2 b2 e
  have e3 := matrixOf_wider (by rw [h3, List.append_assoc]) b3 e (X := u1)
  have e4 := at_wider hg e
  exact ⟨by rw [e1, e2, e0]; exact hm.mean, by rw [e1, e2, e3]; exact hm.second, by rw [e4, e1, e2, e0]; exact hm.cgf⟩

theorem broadcastsTo_tail (pa : List Nat) : BroadcastsTo [N] (pa ++ [N]) := by
  refine ⟨by simp, fun k => ?_⟩
  rw [axisLen_append]
  by_cases hk : k < 1
  · right; rw [if_pos (by simpa using hk)]
  · left; exact axisLen_of_ge (by simp; omega)

/-- the sums of the columns, with one axis -/
theorem colSum_ok (hQ : Q.shape = [N, N]) : ∃ r, npSumAxis Q 1 = .ok r ∧ r.shape = [N] ∧
    ∀ c, r.at c = ∑ l ∈ Finset.range N, Q.at (coord [l, c 0]) := by
  obtain ⟨r, h⟩ : ∃ r, npSumAxis Q 1 = .ok r := ⟨_, by unfold npSumAxis; rw [if_pos (by simp [hQ])]⟩
  refine ⟨r, h, ?_, fun c => ?_⟩
  · unfold npSumAxis at h
    rw [if_pos (by simp [hQ])] at h
    injection h with h
    rw [← h]
    simp [hQ]
  · rw [npSumAxis_at h]
    have a1 : axisLen Q.shape 1 = N := by simp [hQ, axisLen]
    rw [a1]
    refine Finset.sum_congr rfl fun l _ => Q.at_congr fun k hk => ?_
    match k with
    | 0 => rfl
    | 1 => rfl
    | k + 2 => exact absurd (axisLen_of_ge (by simp [hQ])) hk

/-- **C82** `GaussianARD.rotate_plates`: afterwards the stored arrays are consistent on every plate, the means on the plates along the
chosen axis are multiplied by the matrix, and the natural parameters of the precisions are divided by the squares of the sums of its
columns. -/
theorem C82_rotate_plates {S1 : List Nat} {axis : Int} {st : GaussArrays} (hu : PlatesDims st.u0.shape pa (N :: (pb ++ s)))
    (h1 : st.phi1.shape = S1 ++ s ++ s) (hS1 : BroadcastsTo S1 (pa ++ N :: pb))
    (hpd : ∀ p ∈ indices S1, ((-2 : ℝ) • matrixOf st.phi1 p s s).PosDef) (hQ : Q.shape = [N, N])
    (hcol : ∀ j < N, ∑ l ∈ Finset.range N, Q.at (coord [l, j]) ≠ 0)
    (hax : axis = pa.length ∨ axis = -((pb.length : Int) + 1)) :
    ∃ st', rotatePlatesArr (pa ++ N :: pb) s Q axis st = .ok st' ∧
      GaussNodeOn (pa ++ N :: pb) s st'.phi0 st'.phi1 st'.u0 st'.u1 st'.g ∧
      ∀ x ∈ indices pa, ∀ i < N, ∀ z ∈ indices pb,
        vectorOf st'.u0 (x ++ i :: z) s = ∑ j ∈ Finset.range N, Q.at (coord [i, j]) • vectorOf st.u0 (x ++ j :: z) s ∧
        matrixOf st'.phi1 (x ++ i :: z) s s = ((∑ l ∈ Finset.range N, Q.at (coord [l, i])) ^ 2)⁻¹ • matrixOf st.phi1 (x ++ i :: z) s s := by
  set P := pa ++ N :: pb with hP
  obtain ⟨u0, a1, a2, a3⟩ := C82_rotate_mean (P := pa) (a := []) (n := N) (m := N) (b := pb ++ s) (X := st.u0) (R := Q) (axis := 0) hu hQ
    (.inl rfl)
  obtain ⟨cs, b1, b2, b3⟩ := colSum_ok hQ
  set T := 2 * s.length + (pb.length + 1) - 1 with hT
  have lT : (pb ++ (s ++ s)).length = T := by simp; omega
  let W : Arr ℝ := ⟨(addTrailingAxes cs T).shape, fun c => (addTrailingAxes cs T).get c ^ (-2 : ℤ)⟩
  have hPe : P ++ (s ++ s) = (pa ++ [N]) ++ (pb ++ (s ++ s)) := by simp [hP]
  have hW : BroadcastsTo W.shape (P ++ (s ++ s)) := by
    rw [hPe]
    exact trailing_shape (by rw [b2]; exact broadcastsTo_tail pa) lT
  have hphi : PlatesDims st.phi1.shape P (s ++ s) := ⟨S1, by rw [h1, List.append_assoc], hS1⟩
  obtain ⟨f1, c1, c2, c3, c4⟩ := npMul_common hW hphi.broadcastsTo
  obtain ⟨S', d1, d2⟩ := platesDims_of_isBroadcast c2 c3 (s := st.phi1.shape) (by simp) hphi
  have u0P : PlatesDims u0.shape P s := by
    obtain ⟨S, e1, e2⟩ := a2
    refine ⟨S ++ N :: pb, by rw [e1]; simp, by rw [hP]; simpa using e2.1, fun k => ?_⟩
    rw [hP, axisLen_append, axisLen_append]
    by_cases hk : k < (N :: pb).length
    · rw [if_pos hk, if_pos hk]; exact .inr rfl
    · rw [if_neg hk, if_neg hk]; exact e2.2 _
  -- the factor on a plate
  have hWq : ∀ q i j : List Nat, i.length = s.length → j.length = s.length →
      W.at (coord (q ++ i ++ j)) = ((∑ l ∈ Finset.range N, Q.at (coord [l, coord q pb.length])) ^ 2)⁻¹ := by
    intro q i j hi hj
    show ((addTrailingAxes cs T).at (coord (q ++ i ++ j))) ^ (-2 : ℤ) = _
    have e : (addTrailingAxes cs T).at (coord (q ++ i ++ j)) = cs.at fun k => coord q (k + pb.length) := by
      show cs.get _ = cs.get _
      congr 1
      funext k
      show (if axisLen (cs.shape ++ List.replicate T 1) (k + T) = 1 then 0 else coord (q ++ i ++ j) (k + T))
        = restrict cs.shape (fun k => coord q (k + pb.length)) k
      have e : axisLen (cs.shape ++ List.replicate T 1) (k + T) = axisLen cs.shape k := by
        rw [axisLen_append, List.length_replicate, if_neg (by omega), Nat.add_sub_cancel]
      rw [e, List.append_assoc, coord_joinC, joinC_ge _ _ (by simp; omega)]
      unfold restrict
      congr 2
      simp
      omega
    rw [e, b3, zero_add, _root_.zpow_neg]
    norm_cast
  have hM : ∀ q, matrixOf f1 q s s = ((∑ l ∈ Finset.range N, Q.at (coord [l, coord q pb.length])) ^ 2)⁻¹ • matrixOf st.phi1 q s s := by
    intro q
    ext i j
    show f1.at _ = _ * st.phi1.at _
    rw [c4, hWq _ _ _ (length_of_mem_indices (multi_mem i)) (length_of_mem_indices (multi_mem j))]
  -- the sums are not zero on the plates of the result
  have hS1' : BroadcastsTo S1 S' := by
    have := IsBroadcast.to c2 (s := st.phi1.shape) (by simp)
    rw [h1, List.append_assoc, d1] at this
    exact broadcastsTo_cancel this
  have hcol' : ∀ q ∈ indices S', ∑ l ∈ Finset.range N, Q.at (coord [l, coord q pb.length]) ≠ 0 := by
    intro q hq
    rcases eq_or_ne N 1 with h1 | h1
    · have := hcol 0 (by omega)
      have e : ∑ l ∈ Finset.range N, Q.at (coord [l, coord q pb.length]) = ∑ l ∈ Finset.range N, Q.at (coord [l, 0]) := ?_
      · rw [e]; exact this
      refine Finset.sum_congr rfl fun l _ => ?_
      apply Q.at_congr
      intro k hk
      match k with
      | 0 => simp [hQ, axisLen, h1] at hk
      | 1 => simp [hQ, axisLen, h1] at hk
      | k + 2 => exact absurd (axisLen_of_ge (by simp [hQ])) hk
    · refine hcol _ ?_
      have hf := c2.fits (pb.length + (s ++ s).length) W.shape (by simp)
      have e : axisLen W.shape (pb.length + (s ++ s).length) = N := by
        show axisLen (cs.shape ++ List.replicate T 1) _ = N
        rw [axisLen_append, List.length_replicate, if_neg (by simp at lT ⊢; omega), b2,
          show pb.length + (s ++ s).length - T = 0 by simp at lT ⊢; omega]
        rfl
      rw [e] at hf
      have hf := hf.resolve_left h1
      rw [d1, axisLen_append, if_neg (by omega), Nat.add_sub_cancel] at hf
      rw [hf]
      exact coord_valid hq _
  have hpd' : ∀ q ∈ indices S', ((-2 : ℝ) • matrixOf f1 q s s).PosDef := by
    intro q hq
    obtain ⟨q1, hq1, e⟩ := exists_restrict hS1'.2 hq
    rw [hM, matrixOf_wider h1 (BroadcastsTo_refl S1) e, smul_comm]
    exact (hpd q1 hq1).smul (by have := hcol' q hq; positivity)
  obtain ⟨Su, eu, hSu⟩ := id u0P
  obtain ⟨Py, hPy, hPyP⟩ := common_plates d2 hSu
  obtain ⟨y, g1, g2, g3⟩ := matrixDotVector_exact d1 eu hPy
  have hS'y : BroadcastsTo S' Py := IsBroadcast.to hPy (by simp)
  have hbb : IsBroadcast [S', Py] Py := by
    obtain ⟨r, hr, hr'⟩ := isBroadcast_of_common hS'y (BroadcastsTo_refl Py)
    have hyr : BroadcastsTo Py r := IsBroadcast.to hr (by simp)
    have : r = Py := axisLen_ext (le_antisymm hr'.1 hyr.1) fun k => by
      rcases hr'.2 k with h | h
      · rcases hyr.2 k with h' | h'
        · rw [h, h']
        · exact h'.symm
      · exact h
    rwa [this] at hr
  obtain ⟨m0, m1, g, k1, k2, k3, k4, k5⟩ := C80_ard_moments (phi0 := npScaleBy (-2) y) (phi1 := f1) (s := s) (P0 := Py) (P1 := S') g2
    (by rw [d1, List.append_assoc]) hpd' hbb fun _ => ⟨fun k => by
      rcases hS'y.2 k with h | h
      · exact .inl h
      · by_cases hk : k < Py.length
        · exact .inr ⟨hk, h⟩
        · left; rw [h]; exact axisLen_of_ge (by omega), by have := hS'y.1; omega⟩
  have hnode : GaussNodeOn P s (npScaleBy (-2) y) f1 m0 m1 g :=
    moments_wider ⟨Py, g2, BroadcastsTo_refl Py⟩ ⟨S', d1, hS'y⟩ ⟨Py, k2, BroadcastsTo_refl Py⟩ k3 k4 hPyP k5
  refine ⟨⟨npScaleBy (-2) y, f1, m0, m1, g⟩, ?_, hnode, fun x hx i hi z hz => ⟨?_, ?_⟩⟩
  · unfold rotatePlatesArr
    have e1 : s.length + (pb.length + 1) = ([] ++ N :: (pb ++ s)).length := by simp; omega
    have e2 : Q.shape.length - 1 = 1 := by simp [hQ]
    simp only [hP, plateAxisBack_ok hax, e1, e2, a1, b1, bind, Except.bind, pure, Except.pure]
    have c1' : npMul ⟨(addTrailingAxes cs (2 * s.length + (pb.length + 1) - 1)).shape,
        fun c => (addTrailingAxes cs (2 * s.length + (pb.length + 1) - 1)).get c ^ (-2 : ℤ)⟩ st.phi1 = .ok f1 := c1
    simp only [c1', g1, k1]
  · have hp : x ++ i :: z ∈ indices P := append_mem_indices hx (mem_indices_cons.2 ⟨hi, hz⟩)
    have hm := hnode.moments _ hp
    obtain ⟨q, hq, e⟩ := exists_restrict hPyP.2 hp
    have e0 : vectorOf (npScaleBy (-2) y) (x ++ i :: z) s = ((-2 : ℝ) • matrixOf f1 (x ++ i :: z) s s) *ᵥ vectorOf u0 (x ++ i :: z) s := by
      rw [vectorOf_scaleBy, smul_mulVec, vectorOf_wider g2 (BroadcastsTo_refl Py) e, g3 q hq,
        matrixOf_wider (X := f1) (by rw [d1, List.append_assoc]) hS'y e, vectorOf_wider eu (IsBroadcast.to hPy (by simp)) e]
    have hm1 := hm.mean
    rw [e0] at hm1
    have hdet : ((-2 : ℝ) • matrixOf f1 (x ++ i :: z) s s).det ≠ 0 := by
      intro h0
      have := congrArg det hm.second
      rw [det_mul, h0, zero_mul, det_one] at this
      exact zero_ne_one this
    have e3 : vectorOf m0 (x ++ i :: z) s = vectorOf u0 (x ++ i :: z) s := by
      have := congrArg (((-2 : ℝ) • matrixOf f1 (x ++ i :: z) s s)⁻¹ *ᵥ ·) hm1
      simpa only [mulVec_mulVec, nonsing_inv_mul _ hdet.isUnit, one_mulVec] using this
    show vectorOf m0 (x ++ i :: z) s = _
    rw [e3]
    funext w
    have := a3 x hx [] (by simp [indices]) i hi (z ++ w.1) (append_mem_indices hz (multi_mem w))
    simp only [List.nil_append] at this
    simp only [vectorOf, Finset.sum_apply, Pi.smul_apply, smul_eq_mul]
    simpa using this
  · show matrixOf f1 (x ++ i :: z) s s = _
    rw [hM]
    have : coord (x ++ i :: z) pb.length = i := by
      rw [coord_joinC, joinC_lt _ _ (by simp [length_of_mem_indices hz])]
      simp [coord, length_of_mem_indices hz]
    rw [this]

/-- **C82** A plate axis out of range raises. -/
theorem C82_rotate_plates_raises {axis : Int} {st : GaussArrays} (h : axis < -(P.length : Int) ∨ axis ≥ P.length) :
    rotatePlatesArr P s Q axis st = .error .valueError := by
  unfold rotatePlatesArr
  rw [plateAxisBack_raises h]
  rfl

end

end Verif
