import Verif.Props.RotateArrays
import Verif.Props.SumMultiplyParents

/-!
# C82, continued: rotations and translations of Gaussian-gamma nodes
-/

namespace Verif
open Spec Matrix

section
variable {P a b s : List Nat} {m n : Nat} {R X C : Arr ℝ}

/-- `np.einsum('...ij,...j->...i', L, b)` -/
theorem matVec_exact {L x : Arr ℝ} {pl px Q : List Nat} (hL : L.shape = pl ++ ([n] ++ [n])) (hx : x.shape = px ++ [n])
    (hQ : IsBroadcast [pl, px] Q) :
    ∃ y, einsumMatVec L x = .ok y ∧ y.shape = Q ++ [n] ∧
      ∀ q ∈ indices Q, vectorOf y q [n] = matrixOf L q [n] [n] *ᵥ vectorOf x q [n] := by
  obtain ⟨y, h1, h2, h3⟩ := rotateEinsum_ok (X := x) (R := L) (b := []) hx hL hQ
  refine ⟨y, h1, h2, fun q hq => ?_⟩
  funext i
  obtain ⟨i, hi, e'⟩ := mem_single i
  simp only [vectorOf, matrixOf, mulVec, dotProduct, of_apply, e']
  rw [sum_single n fun j => L.at (coord (q ++ [i] ++ j)) * x.at (coord (q ++ j))]
  rw [h3 q hq i hi [] (by simp [indices])]
  simp

theorem po_matVec {L x : Arr ℝ} (hL : PlatesDims L.shape P ([n] ++ [n])) (hx : PlatesDims x.shape P [n]) :
    ∃ y, einsumMatVec L x = .ok y ∧ PlatesDims y.shape P [n] ∧
      ∀ p ∈ indices P, vectorOf y p [n] = matrixOf L p [n] [n] *ᵥ vectorOf x p [n] := by
  obtain ⟨pl, hL, hl⟩ := hL
  obtain ⟨px, hx, hp⟩ := hx
  obtain ⟨Q, hQ, hQP⟩ := common_plates hl hp
  obtain ⟨y, h1, h2, h3⟩ := matVec_exact hL hx hQ
  rw [← List.append_assoc] at hL
  refine ⟨y, h1, ⟨Q, h2, hQP⟩, fun p hp => ?_⟩
  obtain ⟨q, hq, e⟩ := exists_restrict hQP.2 hp
  rw [matrixOf_wider hL (IsBroadcast.to hQ (by simp)) e, vectorOf_wider h2 (BroadcastsTo_refl Q) e,
    vectorOf_wider hx (IsBroadcast.to hQ (by simp)) e]
  exact h3 q hq

/-- `np.einsum('...ij,...i,...j->...', L, b, x)` -/
theorem po_quad {L d x : Arr ℝ} (hL : PlatesDims L.shape P ([n] ++ [n])) (hd : PlatesDims d.shape P [n])
    (hx : PlatesDims x.shape P [n]) :
    ∃ y, einsumQuad L d x = .ok y ∧ BroadcastsTo y.shape P ∧
      ∀ p ∈ indices P, y.at (coord p) = vectorOf d p [n] ⬝ᵥ matrixOf L p [n] [n] *ᵥ vectorOf x p [n] := by
  obtain ⟨pl, hL, hl⟩ := hL
  obtain ⟨pd, hd, hd'⟩ := hd
  obtain ⟨px, hx, hx'⟩ := hx
  obtain ⟨Q, hQ, hQP⟩ := exists_isBroadcast_of_all (ps := [pl, pd, px]) (S := P) (by simp [hl, hd', hx'])
  obtain ⟨y, h1, h2, h3⟩ := npEinsumEll_ok [(L, [2, 1]), (d, [2]), (x, [1])] [] (fun _ => n) [2, 1] Q
    (by simp [hL, hd, hx]) (by simpa [hL, hd, hx] using hQ)
    (by simp only [List.mem_cons, List.not_mem_nil, or_false]; rintro op (rfl | rfl | rfl) <;> simp [hL, hd, hx]) (by
      rintro k ⟨op, hop, hk⟩
      right
      refine ⟨(L, [2, 1]), by simp, ?_⟩
      simp only [List.mem_cons, List.not_mem_nil, or_false] at hop
      rcases hop with rfl | rfl | rfl <;> simp at hk <;> simp [hL, hk])
    (by simp) (by simp) (by simp) (by
      intro k
      simp)
  simp only [List.map_nil, List.append_nil] at h2
  refine ⟨y, h1, by rw [h2]; exact hQP, fun p hp => ?_⟩
  obtain ⟨q, hq, e⟩ := exists_restrict hQP.2 hp
  have hL' := hL
  rw [← List.append_assoc] at hL'
  rw [matrixOf_wider hL' (IsBroadcast.to hQ (by simp)) e, vectorOf_wider hd (IsBroadcast.to hQ (by simp)) e,
    vectorOf_wider hx (IsBroadcast.to hQ (by simp)) e, at_wider (Q := Q) (by rw [h2]; exact BroadcastsTo_refl Q) e]
  have h := h3 (coord q) (fun _ => 0) (coord_valid hq) (by simp)
  rw [show joinC ([] : List Nat).length (coord (([] : List Nat).map fun _ => 0)) (coord q) = coord q by
    funext k; rw [joinC_ge _ _ (by simp)]; simp] at h
  rw [h]
  simp only [List.map_cons, List.map_nil, sumKeys, List.prod_cons, List.prod_nil, mul_one, Function.update_self,
    Function.update_of_ne (show (2 : Nat) ≠ 1 by decide)]
  simp only [vectorOf, matrixOf, mulVec, dotProduct, of_apply, Finset.mul_sum]
  have s2 : ∀ k : List Nat, ∑ j : MultiIndex [n], d.at (coord (q ++ k)) * (L.at (coord (q ++ k ++ j.1)) * x.at (coord (q ++ j.1)))
      = ∑ j ∈ Finset.range n, d.at (coord (q ++ k)) * (L.at (coord (q ++ k ++ [j])) * x.at (coord (q ++ [j]))) := fun k =>
    sum_single n fun j => d.at (coord (q ++ k)) * (L.at (coord (q ++ k ++ j)) * x.at (coord (q ++ j)))
  simp only [s2]
  rw [sum_single n fun k => ∑ j ∈ Finset.range n, d.at (coord (q ++ k)) * (L.at (coord (q ++ k ++ [j])) * x.at (coord (q ++ [j])))]
  refine Finset.sum_congr rfl fun i _ => Finset.sum_congr rfl fun j _ => ?_
  rw [List.append_assoc q, coord_joinC q [i], coord_joinC q [j], coord_joinC q ([i] ++ [j])]
  simp only [List.length_cons, List.length_nil, List.cons_append, List.nil_append]
  ring

theorem axisM_single (M : Matrix (MultiIndex [n]) (MultiIndex [n]) ℝ) : axisM [] [] M = M := by
  let z : MultiIndex [] := ⟨[], indexOf_mem (mem_indices_nil.2 rfl)⟩
  have e : ∀ i : MultiIndex [n], (axisEquiv [] [n] []).symm i = ((z, z), i) := by
    intro i
    rw [Equiv.symm_apply_eq]
    exact Subtype.ext (by rw [axisEquiv_val]; simp [z])
  ext i j
  unfold axisM
  rw [submatrix_apply, e i, e j]
  simp [kronecker, kroneckerMap_apply]

theorem checkShape_four {plates : List Nat} {x : Arr4} (h : ShapedGG plates s x) : checkShape plates (ggDims s) (Arr4.list x) true = .ok () := by
  obtain ⟨h0, h1, h2, h3⟩ := h
  have sc : ∀ {sh : List Nat}, BroadcastsTo sh plates → PlatesDims sh plates [] := fun h => ⟨_, by simp, h⟩
  unfold checkShape ggDims Arr4.list
  rw [if_neg (by simp), forM_except_ok]
  intro q hq
  simp only [List.zip_cons_cons, List.zip_nil_right, List.mem_cons, List.not_mem_nil, or_false] at hq
  rcases hq with rfl | rfl | rfl | rfl
  · exact checkShape1_platesDims h0
  · exact checkShape1_platesDims h1
  · exact checkShape1_platesDims (sc h2)
  · exact checkShape1_platesDims (sc h3)

/-- `x / tau`, with `tau` the scalars of the plates -/
theorem div_trail {tau : Arr ℝ} (hX : PlatesDims X.shape P s) (ht : BroadcastsTo tau.shape P) :
    ∃ r, npDiv X (addTrailingAxes tau s.length) = .ok r ∧ PlatesDims r.shape P s ∧
      ∀ p, vectorOf r p s = (tau.at (coord p))⁻¹ • vectorOf X p s := by
  obtain ⟨r, h1, h2, h3, h4⟩ := npDiv_common hX.broadcastsTo (trailing_shape ht rfl)
  refine ⟨r, h1, platesDims_of_isBroadcast h2 h3 (by simp) hX, fun p => ?_⟩
  funext i
  show r.at _ = (tau.at (coord p))⁻¹ * X.at _
  rw [h4, trailing_at (length_of_mem_indices (multi_mem i))]
  ring

theorem trail_mul {tau : Arr ℝ} (hX : PlatesDims X.shape P s) (ht : BroadcastsTo tau.shape P) :
    ∃ r, npMul (addTrailingAxes tau s.length) X = .ok r ∧ PlatesDims r.shape P s ∧
      ∀ p, vectorOf r p s = tau.at (coord p) • vectorOf X p s := by
  obtain ⟨r, h1, h2, h3, h4⟩ := npMul_common (trailing_shape ht rfl) hX.broadcastsTo
  refine ⟨r, h1, platesDims_of_isBroadcast h2 h3 (by simp) hX, fun p => ?_⟩
  funext i
  show r.at _ = tau.at (coord p) * X.at _
  rw [h4, trailing_at (length_of_mem_indices (multi_mem i))]

/-- **C82** `GaussianGamma.rotate`: the stored arrays stay consistent on every plate, the mean is rotated and the gamma part is kept. -/
theorem C82_gaussian_gamma_rotate_partial {inv logdet : Option (Arr ℝ)} {st : GammaArraysState} {mu : List Nat → MultiIndex [n] → ℝ}
    {r : List Nat → ℝ} (h : GammaNodeOn P [n] st.phi st.u st.g mu r) (hR : RotationArgs n R inv logdet) :
    ∃ st', ggRotateArr P [n] R inv logdet st = .ok st' ∧
      GammaNodeOn P [n] st'.phi st'.u st'.g (fun p => matrixOf R [] [n] [n] *ᵥ mu p) r := by
  obtain ⟨V, v1, v2, v3⟩ := invOr_ok hR
  obtain ⟨l1, l2⟩ := logdetOr_ok hR
  obtain ⟨t1, t2⟩ := matrixOf_T v2
  have hax : (-1 : Int) = (([] : List Nat).length : Int) ∨ (-1 : Int) = -((([] : List Nat).length : Int) + 1) := .inr (by simp)
  obtain ⟨p0, p1, p2, p3⟩ := h.s_phi
  obtain ⟨q0, q1, q2, q3⟩ := h.s_u
  obtain ⟨m0, c1, c2, c3⟩ := C82_rotate_mean (a := []) (b := []) q0 hR.shape hax
  obtain ⟨m1, d1, d2, d3⟩ := C82_rotate_covariance (a := []) (b := []) q1 hR.shape hax
  obtain ⟨f0, a1, a2, a3⟩ := C82_rotate_mean (a := []) (b := []) p0 t1 hax
  obtain ⟨f1, b1, b2, b3⟩ := C82_rotate_covariance (a := []) (b := []) p1 t1 hax
  obtain ⟨g', g1, g2, g3⟩ := npSub_common h.s_g (Y := logdetOr logdet R)
    (by rw [l1]; exact ⟨by simp, fun k => .inl (by simp [axisLen])⟩)
  have su : ShapedGG P [n] (m0, m1, st.u.2.2.1, st.u.2.2.2) := ⟨c2, d2, q2, q3⟩
  have sp : ShapedGG P [n] (f0, f1, st.phi.2.2.1, st.phi.2.2.2) := ⟨a2, b2, p2, p3⟩
  have aM := axisM_single (n := n)
  refine ⟨⟨(f0, f1, st.phi.2.2.1, st.phi.2.2.2), (m0, m1, st.u.2.2.1, st.u.2.2.2), g'⟩, ?_, sp, su, g2, fun p hp => ?_⟩
  · unfold ggRotateArr
    rw [if_neg (by simp)]
    simp only [List.length_cons, List.length_nil, List.nil_append] at a1 b1 c1 d1
    simp only [v1, a1, b1, c1, d1, g1, checkShape_four su, checkShape_four sp, bind, Except.bind, pure, Except.pure]
  · have hm := h.moments p hp
    set K := matrixOf R [] [n] [n] with hK
    have hu := hR.invertible.isUnit
    have kk : K⁻¹ * K = 1 := nonsing_inv_mul _ hu
    have kt : K⁻¹ᵀ * Kᵀ = 1 := by rw [← transpose_mul, mul_nonsing_inv _ hu, transpose_one]
    have e0 : vectorOf f0 p [n] = K⁻¹ᵀ *ᵥ vectorOf st.phi.1 p [n] := by
      have := axis_mulVec (a3 p hp)
      rw [aM, t2, v3] at this
      exact this
    have e1 : matrixOf f1 p [n] [n] = K⁻¹ᵀ * matrixOf st.phi.2.1 p [n] [n] * K⁻¹ := by
      have := axes_conj (b3 p hp)
      rw [aM, t2, v3, transpose_transpose] at this
      exact this
    have e2 : vectorOf m0 p [n] = K *ᵥ vectorOf st.u.1 p [n] := by
      have := axis_mulVec (c3 p hp)
      rw [aM] at this
      exact this
    have e3 : matrixOf m1 p [n] [n] = K * matrixOf st.u.2.1 p [n] [n] * Kᵀ := by
      have := axes_conj (d3 p hp)
      rw [aM] at this
      exact this
    have hL : ((-2 : ℝ) • matrixOf st.phi.2.1 p [n] [n]).det ≠ 0 := by
      intro h0
      have := congrArg det hm.u1
      rw [det_mul, h0, zero_mul, det_one] at this
      exact zero_ne_one this
    refine ⟨?_, ?_, hm.u2, hm.u3, ?_, ?_, ?_⟩
    · show ((-2 : ℝ) • matrixOf f1 p [n] [n]) *ᵥ (K *ᵥ mu p) = vectorOf f0 p [n]
      rw [e1, e0, rotate_prec, ← hm.mean]
      simp only [mulVec_mulVec]
      rw [Matrix.mul_assoc, kk, Matrix.mul_one]
    · show r p = -st.phi.2.2.1.at (coord p) - 1 / 2 * ((K *ᵥ mu p) ⬝ᵥ vectorOf f0 p [n])
      rw [e0, rotate_dot hR.invertible]
      exact hm.rate
    · show vectorOf m0 p [n] = (st.phi.2.2.2.at (coord p) / r p) • (K *ᵥ mu p)
      rw [e2, hm.u0, mulVec_smul]
    · show ((-2 : ℝ) • matrixOf f1 p [n] [n]) * (matrixOf m1 p [n] [n] - (st.phi.2.2.2.at (coord p) / r p)
        • vecMulVec (K *ᵥ mu p) (K *ᵥ mu p)) = 1
      rw [e1, e3, rotate_prec, vecMulVec_rotate]
      have : K * matrixOf st.u.2.1 p [n] [n] * Kᵀ - (st.phi.2.2.2.at (coord p) / r p) • (K * vecMulVec (mu p) (mu p) * Kᵀ)
          = K * (matrixOf st.u.2.1 p [n] [n] - (st.phi.2.2.2.at (coord p) / r p) • vecMulVec (mu p) (mu p)) * Kᵀ := by
        rw [Matrix.mul_sub, Matrix.sub_mul, Matrix.mul_smul, Matrix.smul_mul]
      rw [this]
      calc K⁻¹ᵀ * ((-2 : ℝ) • matrixOf st.phi.2.1 p [n] [n]) * K⁻¹
            * (K * (matrixOf st.u.2.1 p [n] [n] - (st.phi.2.2.2.at (coord p) / r p) • vecMulVec (mu p) (mu p)) * Kᵀ)
          = K⁻¹ᵀ * (((-2 : ℝ) • matrixOf st.phi.2.1 p [n] [n]) * (K⁻¹ * K)
            * (matrixOf st.u.2.1 p [n] [n] - (st.phi.2.2.2.at (coord p) / r p) • vecMulVec (mu p) (mu p))) * Kᵀ := by
            simp only [Matrix.mul_assoc]
        _ = 1 := by rw [kk, Matrix.mul_one, hm.u1, Matrix.mul_one, kt]
    · show g'.at (coord p) = 1 / 2 * Real.log ((-2 : ℝ) • matrixOf f1 p [n] [n]).det + st.phi.2.2.2.at (coord p) * Real.log (r p)
        - Real.log (Real.Gamma (st.phi.2.2.2.at (coord p)))
      rw [g3, l2, e1, rotate_prec, rotate_logdet hR.invertible hL, hm.cgf]
      ring

/-- **C82** `GaussianGamma.translate`: the stored arrays stay consistent on every plate, the bias is added to the mean and the gamma
part is kept. -/
theorem C82_gaussian_gamma_translate_partial {d : Arr ℝ} {st : GammaArraysState} {mu : List Nat → MultiIndex [n] → ℝ}
    {r : List Nat → ℝ} (h : GammaNodeOn P [n] st.phi st.u st.g mu r) (ht : ∀ p ∈ indices P, st.u.2.2.1.at (coord p) ≠ 0)
    (hsym : ∀ p ∈ indices P, (matrixOf st.phi.2.1 p [n] [n])ᵀ = matrixOf st.phi.2.1 p [n] [n]) (hd : PlatesDims d.shape P [n]) :
    ∃ st', ggTranslateArr P [n] d st = .ok st' ∧
      GammaNodeOn P [n] st'.phi st'.u st'.g (fun p => mu p + vectorOf d p [n]) r := by
  obtain ⟨p0, p1, p2, p3⟩ := h.s_phi
  obtain ⟨q0, q1, q2, q3⟩ := h.s_u
  obtain ⟨x, x1, x2, x3⟩ := div_trail q0 q2
  obtain ⟨xb, a1, a2, a3⟩ := po_outer x2 hd rfl
  obtain ⟨bx, b1, b2, b3⟩ := po_transpose a2 rfl
  obtain ⟨bb, c1, c2, c3⟩ := po_outer hd hd rfl
  obtain ⟨t1, d1, d2, d3⟩ := trail_mul hd q2
  obtain ⟨m0, e1, e2, e3⟩ := po_add q0 d2
  obtain ⟨t2, f1, f2, f3⟩ := po_add a2 b2
  obtain ⟨t3, g1, g2, g3⟩ := po_add f2 c2
  obtain ⟨t4, h1, h2, h3⟩ := trail_mul2 g2 q2
  obtain ⟨m1, i1, i2, i3⟩ := po_add q1 h2
  obtain ⟨u1, j1, j2, j3⟩ := po_quad (po_scale (-2) p1) hd hd
  obtain ⟨u2, k1, k2, k3⟩ := po_quad (po_scale (-2) p1) hd x2
  obtain ⟨t5, l1, l2, l3⟩ := sc_add (X := u1) (Y := npScaleBy 2 u2) j2 k2
  obtain ⟨lb, n1, n2, n3⟩ := po_matVec (po_scale (-2) p1) hd
  obtain ⟨f0, o1, o2, o3⟩ := po_add p0 n2
  obtain ⟨f2', r1, r2, r3⟩ := sc_add (X := st.phi.2.2.1) (Y := npScaleBy (-0.5) t5) p2 l2
  have su : ShapedGG P [n] (m0, m1, st.u.2.2.1, st.u.2.2.2) := ⟨e2, i2, q2, q3⟩
  have sp : ShapedGG P [n] (f0, st.phi.2.1, f2', st.phi.2.2.2) := ⟨o2, p1, r2, p3⟩
  refine ⟨⟨(f0, st.phi.2.1, f2', st.phi.2.2.2), (m0, m1, st.u.2.2.1, st.u.2.2.2), st.g⟩, ?_, sp, su, h.s_g, fun p hp => ?_⟩
  · unfold ggTranslateArr
    rw [if_neg (by simp)]
    simp only [List.length_cons, List.length_nil, zero_add] at x1 a1 b1 c1 d1 h1
    simp only [x1, a1, b1, c1, d1, e1, f1, g1, h1, i1, j1, k1, l1, n1, o1, r1, checkShape_four su, checkShape_four sp, bind,
      Except.bind, pure, Except.pure]
  · have hm := h.moments p hp
    have hx : vectorOf x p [n] = mu p := by
      rw [x3, hm.u0, ← hm.u2, smul_smul, inv_mul_cancel₀ (ht p hp), one_smul]
    have hL : ((-2 : ℝ) • matrixOf st.phi.2.1 p [n] [n])ᵀ = (-2 : ℝ) • matrixOf st.phi.2.1 p [n] [n] := by
      rw [transpose_smul, hsym p hp]
    have hf0 : vectorOf f0 p [n] = vectorOf st.phi.1 p [n] + ((-2 : ℝ) • matrixOf st.phi.2.1 p [n] [n]) *ᵥ vectorOf d p [n] := by
      rw [vectorOf_sum o3, n3 p hp, matrixOf_scaleBy]
    refine ⟨?_, ?_, hm.u2, hm.u3, ?_, ?_, hm.cgf⟩
    · show ((-2 : ℝ) • matrixOf st.phi.2.1 p [n] [n]) *ᵥ (mu p + vectorOf d p [n]) = vectorOf f0 p [n]
      rw [hf0, mulVec_add, hm.mean]
    · show r p = -f2'.at (coord p) - 1 / 2 * ((mu p + vectorOf d p [n]) ⬝ᵥ vectorOf f0 p [n])
      rw [hf0, r3, scaleBy_at, l3, scaleBy_at, j3 p hp, k3 p hp, matrixOf_scaleBy, hx, hm.rate]
      simp only [add_dotProduct, dotProduct_add, ← hm.mean]
      rw [dot_symm hL (mu p) (vectorOf d p [n])]
      ring
    · show vectorOf m0 p [n] = (st.phi.2.2.2.at (coord p) / r p) • (mu p + vectorOf d p [n])
      rw [vectorOf_sum e3, hm.u0, d3, hm.u2, smul_add]
    · show ((-2 : ℝ) • matrixOf st.phi.2.1 p [n] [n]) * (matrixOf m1 p [n] [n] - (st.phi.2.2.2.at (coord p) / r p)
        • vecMulVec (mu p + vectorOf d p [n]) (mu p + vectorOf d p [n])) = 1
      rw [← hm.u1]
      congr 1
      rw [matrixOf_sum i3, h3, matrixOf_sum g3, matrixOf_sum f3, b3 p hp, a3 p hp, c3 p hp, hx, hm.u2, vecMulVec_add, add_vecMulVec,
        add_vecMulVec, transpose_vecMulVec]
      simp only [smul_add]
      abel

/-- **C82 fails for Gaussian-gamma arrays with another number of axes**, which are not implemented. -/
theorem C82_gaussian_gamma_refuted {inv logdet : Option (Arr ℝ)} {d : Arr ℝ} {st : GammaArraysState} (hs : s.length ≠ 1) :
    ggRotateArr P s R inv logdet st = .error .notImplemented ∧ ggTranslateArr P s d st = .error .notImplemented := by
  unfold ggRotateArr ggTranslateArr
  rw [if_pos hs, if_pos hs]
  exact ⟨rfl, rfl⟩

end

end Verif
