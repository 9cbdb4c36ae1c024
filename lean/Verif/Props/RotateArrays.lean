import Verif.Lemmas.AxisMatrix
import Verif.Spec.RotateArrays
import Verif.Props.GammaArrays
import Verif.Props.MultinomialGradient

/-!
# C82: rotations and translations of Gaussian nodes are right on whole arrays
-/

namespace Verif
open Spec Matrix

section
variable {P a b s : List Nat} {m n : Nat} {R X C : Arr ℝ}

theorem at_prefix {R : Arr ℝ} {p q : List Nat} (h : R.shape.length ≤ q.length) : R.at (coord (p ++ q)) = R.at (coord q) := by
  apply R.at_congr
  intro k hk
  have : k < R.shape.length := by
    by_contra h'
    exact hk (axisLen_of_ge (by omega))
  rw [coord_joinC, joinC_lt _ _ (by omega)]

theorem isBroadcast_nil (P : List Nat) : IsBroadcast [[], P] P :=
  ⟨by simp, .inr ⟨P, by simp, rfl⟩, by
    intro k s hs
    rcases List.mem_cons.1 hs with rfl | hs
    · left; simp [axisLen]
    · obtain rfl := List.mem_singleton.1 hs; exact .inr rfl, fun k => .inr ⟨P, by simp, rfl⟩⟩

/-- the axis that `axis` counts from the front or from the back -/
theorem axisBack_ok {axis : Int} (h : axis = a.length ∨ axis = -((b.length : Int) + 1)) :
    axisBack axis (a ++ n :: b).length = .ok (b.length + 1) := by
  unfold axisBack
  rw [if_neg (by simp; omega)]
  congr 1
  simp only [List.length_append, List.length_cons]
  split <;> omega

theorem rotateEinsum_matrix {pa : List Nat} (hX : X.shape = pa ++ n :: b) (hR : R.shape = [m, n]) :
    ∃ Y, rotateEinsum X R (b.length + 1) = .ok Y ∧ Y.shape = pa ++ m :: b ∧
      ∀ p ∈ indices pa, ∀ i < m, ∀ l ∈ indices b, Y.at (coord (p ++ i :: l))
        = ∑ j ∈ Finset.range n, R.at (coord [i, j]) * X.at (coord (p ++ j :: l)) := by
  obtain ⟨Y, h1, h2, h3⟩ := rotateEinsum_ok (R := R) (pr := []) hX (by simpa using hR) (isBroadcast_nil pa)
  refine ⟨Y, h1, h2, fun p hp i hi l hl => ?_⟩
  rw [h3 p hp i hi l hl]
  refine Finset.sum_congr rfl fun j _ => ?_
  rw [at_prefix (by simp [hR])]

/-- **C82** `rotate_mean` multiplies the chosen axis of the array by the matrix, on every plate. -/
theorem C82_rotate_mean {axis : Int} (hX : PlatesDims X.shape P (a ++ n :: b)) (hR : R.shape = [m, n])
    (hax : axis = a.length ∨ axis = -((b.length : Int) + 1)) :
    ∃ Y, rotateMeanArr X R axis (a ++ n :: b).length = .ok Y ∧ PlatesDims Y.shape P (a ++ m :: b) ∧
      ∀ p ∈ indices P, AxisRotated R a b p m n X Y := by
  obtain ⟨S, hX, hS⟩ := hX
  rw [← List.append_assoc] at hX
  obtain ⟨Y, h1, h2, h3⟩ := rotateEinsum_matrix hX hR
  rw [List.append_assoc] at h2 hX
  refine ⟨Y, by unfold rotateMeanArr; rw [axisBack_ok hax]; exact h1, ⟨S, h2, hS⟩, fun p hp x hx i hi z hz => ?_⟩
  obtain ⟨q, hq, e⟩ := exists_restrict hS.2 hp
  have wide : ∀ (Z : Arr ℝ) (k j : Nat), Z.shape = S ++ (a ++ k :: b) → j < k →
      Z.at (coord (p ++ (x ++ j :: z))) = Z.at (coord (q ++ (x ++ j :: z))) := by
    intro Z k j hZ hj
    exact congrFun (vectorOf_wider hZ (BroadcastsTo_refl S) e)
      ⟨x ++ j :: z, indexOf_mem (append_mem_indices hx (mem_indices_cons.2 ⟨hj, hz⟩))⟩
  rw [wide Y m i h2 hi, ← List.append_assoc, h3 _ (append_mem_indices hq hx) i hi z hz]
  refine Finset.sum_congr rfl fun j hj => ?_
  rw [wide X n j hX (Finset.mem_range.1 hj), List.append_assoc]

/-- **C82** `rotate_covariance` multiplies the chosen axis by the matrix on both sides, on every plate. -/
theorem C82_rotate_covariance {axis : Int} (hC : PlatesDims C.shape P ((a ++ n :: b) ++ (a ++ n :: b))) (hR : R.shape = [m, n])
    (hax : axis = a.length ∨ axis = -((b.length : Int) + 1)) :
    ∃ Y, rotateCovArr C R axis (a ++ n :: b).length = .ok Y ∧ PlatesDims Y.shape P ((a ++ m :: b) ++ (a ++ m :: b)) ∧
      ∀ p ∈ indices P, AxesRotated R a b p m n C Y := by
  obtain ⟨S, hC, hS⟩ := hC
  have hC1 : C.shape = (S ++ a) ++ n :: (b ++ (a ++ n :: b)) := by rw [hC]; simp
  obtain ⟨L, h1, h2, h3⟩ := rotateEinsum_matrix hC1 hR
  have h2' : L.shape = (S ++ (a ++ m :: b) ++ a) ++ n :: b := by rw [h2]; simp
  obtain ⟨Y, k1, k2, k3⟩ := rotateEinsum_matrix h2' hR
  have hY : Y.shape = S ++ ((a ++ m :: b) ++ (a ++ m :: b)) := by rw [k2]; simp
  refine ⟨Y, ?_, ⟨S, hY, hS⟩, fun p hp x hx i hi z hz x' hx' i' hi' z' hz' => ?_⟩
  · unfold rotateCovArr leftRotateArr rightRotateArr
    simp only [axisBack_ok hax, bind, Except.bind]
    rw [show (a ++ n :: b).length + (b.length + 1) = (b ++ (a ++ n :: b)).length + 1 by simp; omega, h1]
    exact k1
  · obtain ⟨q, hq, e⟩ := exists_restrict hS.2 hp
    have wide : ∀ (Z : Arr ℝ) (k l j j' : Nat), Z.shape = S ++ ((a ++ k :: b) ++ (a ++ l :: b)) → j < k → j' < l →
        Z.at (coord (p ++ (x ++ j :: z) ++ (x' ++ j' :: z'))) = Z.at (coord (q ++ (x ++ j :: z) ++ (x' ++ j' :: z'))) := by
      intro Z k l j j' hZ hj hj'
      rw [List.append_assoc p, List.append_assoc q]
      exact congrFun (vectorOf_wider hZ (BroadcastsTo_refl S) e)
        ⟨_, indexOf_mem (append_mem_indices (append_mem_indices hx (mem_indices_cons.2 ⟨hj, hz⟩))
          (append_mem_indices hx' (mem_indices_cons.2 ⟨hj', hz'⟩)))⟩
    have hxi : x ++ i :: z ∈ indices (a ++ m :: b) := append_mem_indices hx (mem_indices_cons.2 ⟨hi, hz⟩)
    rw [wide Y m m i i' hY hi hi', ← List.append_assoc,
      k3 _ (append_mem_indices (append_mem_indices hq hxi) hx') i' hi' z' hz', Finset.sum_comm]
    refine Finset.sum_congr rfl fun j' hj' => ?_
    have hj' := Finset.mem_range.1 hj'
    rw [show q ++ (x ++ i :: z) ++ x' ++ j' :: z' = (q ++ x) ++ i :: (z ++ (x' ++ j' :: z')) by simp,
      h3 _ (append_mem_indices hq hx) i hi _ (append_mem_indices hz (append_mem_indices hx' (mem_indices_cons.2 ⟨hj', hz'⟩))),
      Finset.mul_sum]
    refine Finset.sum_congr rfl fun j hj => ?_
    rw [wide C n n j j' hC (Finset.mem_range.1 hj) hj']
    rw [show (q ++ x) ++ j :: (z ++ (x' ++ j' :: z')) = q ++ (x ++ j :: z) ++ (x' ++ j' :: z') by simp]
    ring

theorem axisBack_raises {axis : Int} {ndim : Nat} (h : axis < -(ndim : Int) ∨ axis ≥ ndim) : axisBack axis ndim = .error .valueError := by
  unfold axisBack; rw [if_pos h]

/-- **C82** An axis out of range raises. -/
theorem C82_axis_raises {axis : Int} {ndim : Nat} (h : axis < -(ndim : Int) ∨ axis ≥ ndim) :
    rotateMeanArr X R axis ndim = .error .valueError ∧ rotateCovArr C R axis ndim = .error .valueError := by
  unfold rotateMeanArr rotateCovArr leftRotateArr
  rw [axisBack_raises h]
  exact ⟨rfl, rfl⟩

/-! ## the rotations as matrices over all axes -/

theorem axis_mulVec {Y : Arr ℝ} {p : List Nat} (h : AxisRotated R a b p n n X Y) :
    vectorOf Y p (a ++ ([n] ++ b)) = axisM a b (matrixOf R [] [n] [n]) *ᵥ vectorOf X p (a ++ ([n] ++ b)) := by
  funext i
  obtain ⟨⟨x, y⟩, rfl⟩ := (axisEquiv a [n] b).surjective i
  obtain ⟨i, hi, e⟩ := mem_single y
  rw [axisM_mulVec]
  have := h x.1.1 (multi_mem _) i hi x.2.1 (multi_mem _)
  simp only [vectorOf, axisEquiv_val, matrixOf, of_apply, e, List.nil_append]
  rw [sum_single n fun j => R.at (coord ([i] ++ j)) * X.at (coord (p ++ (x.1.1 ++ (j ++ x.2.1))))]
  exact this

theorem axes_conj {Y : Arr ℝ} {p : List Nat} (h : AxesRotated R a b p n n C Y) :
    matrixOf Y p (a ++ ([n] ++ b)) (a ++ ([n] ++ b)) = axisM a b (matrixOf R [] [n] [n])
      * matrixOf C p (a ++ ([n] ++ b)) (a ++ ([n] ++ b)) * (axisM a b (matrixOf R [] [n] [n]))ᵀ := by
  ext i j
  obtain ⟨⟨x, y⟩, rfl⟩ := (axisEquiv a [n] b).surjective i
  obtain ⟨⟨x', y'⟩, rfl⟩ := (axisEquiv a [n] b).surjective j
  obtain ⟨i, hi, e⟩ := mem_single y
  obtain ⟨i', hi', e'⟩ := mem_single y'
  rw [Matrix.mul_assoc, axisM_mul_apply]
  have hr : ∀ q, (matrixOf C p (a ++ ([n] ++ b)) (a ++ ([n] ++ b)) * (axisM a b (matrixOf R [] [n] [n]))ᵀ) q
      (axisEquiv a [n] b (x', y')) = ∑ j', matrixOf R [] [n] [n] y' j' * matrixOf C p _ _ q (axisEquiv a [n] b (x', j')) := by
    intro q
    rw [← transpose_apply (M := matrixOf C p _ _ * _), transpose_mul, transpose_transpose, axisM_mul_apply]
    rfl
  simp only [hr]
  have := h x.1.1 (multi_mem _) i hi x.2.1 (multi_mem _) x'.1.1 (multi_mem _) i' hi' x'.2.1 (multi_mem _)
  simp only [axisEquiv_val, matrixOf, of_apply, e, e', List.nil_append]
  have s2 : ∀ k : List Nat, ∑ x_2 : MultiIndex [n], R.at (coord ([i'] ++ x_2.1))
      * C.at (coord (p ++ (x.1.1 ++ (k ++ x.2.1)) ++ (x'.1.1 ++ (x_2.1 ++ x'.2.1))))
      = ∑ j' ∈ Finset.range n, R.at (coord ([i'] ++ [j']))
      * C.at (coord (p ++ (x.1.1 ++ (k ++ x.2.1)) ++ (x'.1.1 ++ ([j'] ++ x'.2.1)))) := fun k =>
    sum_single n fun j' => R.at (coord ([i'] ++ j')) * C.at (coord (p ++ (x.1.1 ++ (k ++ x.2.1)) ++ (x'.1.1 ++ (j' ++ x'.2.1))))
  simp only [s2]
  rw [sum_single n fun k => R.at (coord ([i] ++ k)) * ∑ j' ∈ Finset.range n, R.at (coord ([i'] ++ [j']))
      * C.at (coord (p ++ (x.1.1 ++ (k ++ x.2.1)) ++ (x'.1.1 ++ ([j'] ++ x'.2.1))))]
  refine this.trans ?_
  refine Finset.sum_congr rfl fun k _ => ?_
  rw [Finset.mul_sum]
  refine Finset.sum_congr rfl fun k' _ => ?_
  simp only [List.cons_append, List.nil_append]
  ring

/-! ## the optional arguments -/

theorem matrixOf_T (hR : R.shape = [n, n]) : (npT R).shape = [n, n] ∧ matrixOf (npT R) [] [n] [n] = (matrixOf R [] [n] [n])ᵀ := by
  refine ⟨by simp [npT, hR], ?_⟩
  ext i j
  obtain ⟨x, hx, e⟩ := mem_single i
  obtain ⟨y, hy, e'⟩ := mem_single j
  have hs : (npT R).shape = [n, n] := by simp [npT, hR]
  have v : ∀ {u w : Nat}, u < n → w < n → ValidIn [n, n] (coord [u, w]) := fun hu hw =>
    coord_valid (mem_indices_cons.2 ⟨hu, mem_indices_cons.2 ⟨hw, mem_indices_nil.2 rfl⟩⟩)
  simp only [matrixOf, of_apply, transpose_apply, e, e', List.nil_append, List.cons_append]
  rw [Arr.at_of_valid _ (by rw [hs]; exact v hx hy), Arr.at_of_valid _ (by rw [hR]; exact v hy hx)]
  unfold npT
  simp only [hR, List.length_cons, List.length_nil]
  congr 1
  funext k
  match k with
  | 0 => rfl
  | 1 => rfl
  | k + 2 => simp [coord]

theorem matrixOf_no_plates (hR : R.shape = [n, n]) (p : List Nat) : matrixOf R p [n] [n] = matrixOf R [] [n] [n] := by
  ext i j
  simp only [matrixOf, of_apply, List.nil_append, List.append_assoc]
  rw [at_prefix]
  simp [hR, length_of_mem_indices (multi_mem i), length_of_mem_indices (multi_mem j)]

section
variable {inv logdet : Option (Arr ℝ)} (h : RotationArgs n R inv logdet)
include h

theorem invOr_ok : ∃ V, invOr inv R = .ok V ∧ V.shape = [n, n] ∧ matrixOf V [] [n] [n] = (matrixOf R [] [n] [n])⁻¹ := by
  cases hi : inv with
  | some V =>
    obtain ⟨h1, h2⟩ := h.inv V hi
    exact ⟨V, rfl, h1, (inv_eq_left_inv h2).symm⟩
  | none =>
    obtain ⟨V, h1, h2, h3⟩ := C79_inv (A := R) (P := []) (s := [n]) (by simp [h.shape]) (by simp) (by
      intro p hp
      rw [mem_indices_nil.1 hp]
      exact h.invertible)
    exact ⟨V, h1, by simpa using h2, (inv_eq_left_inv (h3 [] (by simp [indices])).2).symm⟩

theorem logdetOr_ok : (logdetOr logdet R).shape = [] ∧ ∀ c, (logdetOr logdet R).at c = Real.log (matrixOf R [] [n] [n]).det := by
  have const : ∀ {X : Arr ℝ}, X.shape = [] → ∀ c, X.at c = X.at (coord []) := by
    intro X hX c
    apply X.at_congr
    intro k hk
    simp [hX, axisLen] at hk
  unfold logdetOr
  cases hl : logdet with
  | some l =>
    obtain ⟨h1, h2⟩ := h.logdet l hl
    exact ⟨h1, fun c => by rw [Option.getD_some, const h1, h2, Real.log_abs]⟩
  | none =>
    have hs : (npSlogdet R).shape = [] := by simp [npSlogdet, h.shape]
    refine ⟨hs, fun c => ?_⟩
    rw [Option.getD_none, const hs, Arr.at_of_valid _ (by rw [hs]; exact coord_valid (by simp [indices]))]
    have a0 : axisLen R.shape 0 = n := by simp [h.shape, axisLen]
    have key : ∀ k, k = n → Real.log (matAt R k (coord [])).det = Real.log (matrixOf R [] [n] [n]).det := by
      rintro _ rfl
      rw [det_matAt (P := []) (by simpa using h.shape) (by simp [indices])]
    exact key _ a0

end

/-! ## what a rotation does to one plate -/

theorem rotate_on {p : List Nat} {K : Matrix (MultiIndex s) (MultiIndex s) ℝ} (hK : K.det ≠ 0)
    {phi0 phi1 u0 u1 g phi0' phi1' u0' u1' g' : Arr ℝ} (h : GaussianMomentsOn s p phi0 phi1 u0 u1 g)
    (e0 : vectorOf phi0' p s = K⁻¹ᵀ *ᵥ vectorOf phi0 p s) (e1 : matrixOf phi1' p s s = K⁻¹ᵀ * matrixOf phi1 p s s * K⁻¹)
    (e2 : vectorOf u0' p s = K *ᵥ vectorOf u0 p s) (e3 : matrixOf u1' p s s = K * matrixOf u1 p s s * Kᵀ)
    (e4 : g'.at (coord p) = g.at (coord p) - Real.log K.det) : GaussianMomentsOn s p phi0' phi1' u0' u1' g' := by
  have hu := hK.isUnit
  have kk : K⁻¹ * K = 1 := nonsing_inv_mul _ hu
  have kt : K⁻¹ᵀ * Kᵀ = 1 := by rw [← transpose_mul, mul_nonsing_inv _ hu, transpose_one]
  have hL : ((-2 : ℝ) • matrixOf phi1 p s s).det ≠ 0 := by
    intro h0
    have := congrArg det h.second
    rw [det_mul, h0, zero_mul, det_one] at this
    exact zero_ne_one this
  constructor
  · rw [e1, e2, e0, rotate_prec, ← h.mean]
    simp only [mulVec_mulVec]
    rw [Matrix.mul_assoc, kk, Matrix.mul_one]
  · rw [e1, e2, e3, rotate_prec, vecMulVec_rotate, ← Matrix.sub_mul, ← Matrix.mul_sub]
    calc K⁻¹ᵀ * ((-2 : ℝ) • matrixOf phi1 p s s) * K⁻¹
          * (K * (matrixOf u1 p s s - vecMulVec (vectorOf u0 p s) (vectorOf u0 p s)) * Kᵀ)
        = K⁻¹ᵀ * (((-2 : ℝ) • matrixOf phi1 p s s) * (K⁻¹ * K)
          * (matrixOf u1 p s s - vecMulVec (vectorOf u0 p s) (vectorOf u0 p s))) * Kᵀ := by simp only [Matrix.mul_assoc]
      _ = 1 := by rw [kk, Matrix.mul_one, h.second, Matrix.mul_one, kt]
  · rw [e4, e1, e2, e0, rotate_prec, rotate_dot hK, rotate_logdet hK hL, h.cgf]
    ring

/-! ## GaussianARD.rotate -/

/-- **C82** `GaussianARD.rotate` along any axis of the variable: the stored arrays stay consistent on every plate, and the mean is
rotated. -/
theorem C82_ard_rotate {inv logdet : Option (Arr ℝ)} {axis : Int} {st : GaussArrays}
    (h : GaussNodeOn P (a ++ n :: b) st.phi0 st.phi1 st.u0 st.u1 st.g) (hR : RotationArgs n R inv logdet)
    (hax : axis = a.length ∨ axis = -((b.length : Int) + 1)) :
    ∃ st', ardRotateArr (a ++ n :: b) R inv logdet axis st = .ok st' ∧
      GaussNodeOn P (a ++ n :: b) st'.phi0 st'.phi1 st'.u0 st'.u1 st'.g ∧
      ∀ p ∈ indices P, AxisRotated R a b p n n st.u0 st'.u0 := by
  obtain ⟨V, v1, v2, v3⟩ := invOr_ok hR
  obtain ⟨l1, l2⟩ := logdetOr_ok hR
  obtain ⟨t1, t2⟩ := matrixOf_T v2
  obtain ⟨f0, a1, a2, a3⟩ := C82_rotate_mean h.s_phi0 t1 hax
  obtain ⟨f1, b1, b2, b3⟩ := C82_rotate_covariance h.s_phi1 t1 hax
  obtain ⟨m0, c1, c2, c3⟩ := C82_rotate_mean h.s_u0 hR.shape hax
  obtain ⟨m1, d1, d2, d3⟩ := C82_rotate_covariance h.s_u1 hR.shape hax
  have hsub : BroadcastsTo (npScaleBy (((a ++ n :: b).eraseIdx ((a ++ n :: b).length - (b.length + 1))).prod : ℝ)
      (logdetOr logdet R)).shape P := by
    show BroadcastsTo (logdetOr logdet R).shape P
    rw [l1]
    exact ⟨by simp, fun k => .inl (by simp [axisLen])⟩
  obtain ⟨g', g1, g2, g3⟩ := npSub_common h.s_g hsub
  have hK := axisM_det_ne (a := a) (b := b) hR.invertible
  have hKi : (axisM a b (matrixOf R [] [n] [n]))⁻¹ᵀ = axisM a b (matrixOf (npT V) [] [n] [n]) := by
    rw [axisM_inv _ hR.invertible, axisM_transpose, t2, v3]
  refine ⟨⟨f0, f1, m0, m1, g'⟩, ?_, ⟨a2, b2, c2, d2, g2, fun p hp => ?_⟩, c3⟩
  · unfold ardRotateArr
    simp only [v1, a1, b1, c1, d1, axisBack_ok hax, g1, bind, Except.bind, pure, Except.pure]
  · refine rotate_on (s := a ++ ([n] ++ b)) hK (h.moments p hp) ?_ ?_ (axis_mulVec (c3 p hp)) (axes_conj (d3 p hp)) ?_
    · rw [hKi]; exact axis_mulVec (a3 p hp)
    · rw [hKi]
      refine (axes_conj (b3 p hp)).trans ?_
      rw [← hKi, transpose_transpose]
    · have e : ((a ++ n :: b).eraseIdx ((a ++ n :: b).length - (b.length + 1))) = a ++ b := by
        rw [show (a ++ n :: b).length - (b.length + 1) = a.length by simp]
        simp [List.eraseIdx_append_of_length_le]
      rw [g3, e, scaleBy_at, l2, axisM_det, Real.log_pow]

/-- **C82** An axis out of range raises. -/
theorem C82_ard_rotate_raises {inv logdet : Option (Arr ℝ)} {axis : Int} {st : GaussArrays} (hR : RotationArgs n R inv logdet)
    (h : axis < -(s.length : Int) ∨ axis ≥ s.length) : ardRotateArr s R inv logdet axis st = .error .valueError := by
  obtain ⟨V, v1, v2, v3⟩ := invOr_ok hR
  unfold ardRotateArr
  simp only [v1, (C82_axis_raises (X := st.phi0) (C := st.phi1) (R := npT V) h).1, bind, Except.bind]

/-! ## Gaussian.rotate -/

theorem dot_three {A B D : Arr ℝ} (hA : A.shape = [n, n]) (hB : PlatesDims B.shape P ([n] ++ [n])) (hD : D.shape = [n, n]) :
    ∃ Y, dotAll [A, B, D] = .ok Y ∧ PlatesDims Y.shape P ([n] ++ [n]) ∧
      ∀ p ∈ indices P, matrixOf Y p [n] [n] = matrixOf A [] [n] [n] * matrixOf B p [n] [n] * matrixOf D [] [n] [n] := by
  have round : ∀ {X Y : Arr ℝ} {px py : List Nat}, X.shape = px ++ [n, n] → Y.shape = py ++ [n, n] → dotRound X Y = dotTwo X Y := by
    intro X Y px py hX hY
    unfold dotRound
    rw [if_neg (by simp [hX, hY]), if_neg (by simp [hX, hY, axisLen])]
  obtain ⟨S, hB, hS⟩ := hB
  obtain ⟨Y, h1, h2, h3⟩ := C79_dot_two (A := A) (B := B) (pa := []) (pb := S) (m := n) (k := n) (n := n) (by simpa using hA) hB
    (isBroadcast_nil S)
  obtain ⟨Z, k1, k2, k3⟩ := C79_dot_two (A := Y) (B := D) (pa := S) (pb := []) (m := n) (k := n) (n := n) h2 (by simpa using hD)
    (isBroadcast_swap (isBroadcast_nil S))
  refine ⟨Z, ?_, ⟨S, k2, hS⟩, fun p hp => ?_⟩
  · show List.foldlM dotRound A [B, D] = _
    simp only [List.foldlM_cons, List.foldlM_nil]
    rw [round (px := []) (by simpa using hA) hB, h1]
    show (dotRound Y D >>= pure) = _
    rw [round (py := []) h2 (by simpa using hD), k1]
    rfl
  · obtain ⟨q, hq, e⟩ := exists_restrict hS.2 hp
    rw [matrixOf_wider (pa := S) (by rw [k2]; simp) (BroadcastsTo_refl S) e, k3 q hq, h3 q hq, matrixOf_no_plates hA,
      matrixOf_no_plates hD, matrixOf_wider (pa := S) (Q := S) (p := p) (q := q) (X := B) (by rw [hB]; simp) (BroadcastsTo_refl S) e]

theorem plates_matrix (hR : R.shape = [n, n]) (P : List Nat) : PlatesDims R.shape P ([n] ++ [n]) :=
  ⟨[], by simpa using hR, ⟨by simp, fun k => .inl (by simp [axisLen])⟩⟩

/-- **C82** `Gaussian.rotate` of vectors: the stored arrays stay consistent on every plate, and the mean is rotated. -/
theorem C82_gaussian_rotate_partial {inv logdet : Option (Arr ℝ)} {st : GaussArrays}
    (h : GaussNodeOn P [n] st.phi0 st.phi1 st.u0 st.u1 st.g) (hR : RotationArgs n R inv logdet) :
    ∃ st', gaussianRotateArr [n] R inv logdet st = .ok st' ∧ GaussNodeOn P [n] st'.phi0 st'.phi1 st'.u0 st'.u1 st'.g ∧
      ∀ p ∈ indices P, vectorOf st'.u0 p [n] = matrixOf R [] [n] [n] *ᵥ vectorOf st.u0 p [n] := by
  obtain ⟨V, v1, v2, v3⟩ := invOr_ok hR
  obtain ⟨l1, l2⟩ := logdetOr_ok hR
  obtain ⟨t1, t2⟩ := matrixOf_T v2
  obtain ⟨r1, r2⟩ := matrixOf_T hR.shape
  obtain ⟨f0, a1, a2, a3⟩ := po_mvdot (plates_matrix t1 P) h.s_phi0 rfl
  obtain ⟨f1, b1, b2, b3⟩ := dot_three t1 h.s_phi1 v2
  obtain ⟨m0, c1, c2, c3⟩ := po_mvdot (plates_matrix hR.shape P) h.s_u0 rfl
  obtain ⟨m1, d1, d2, d3⟩ := dot_three hR.shape h.s_u1 r1
  obtain ⟨g', g1, g2, g3⟩ := npSub_common h.s_g (Y := logdetOr logdet R)
    (by rw [l1]; exact ⟨by simp, fun k => .inl (by simp [axisLen])⟩)
  have c4 : ∀ p ∈ indices P, vectorOf m0 p [n] = matrixOf R [] [n] [n] *ᵥ vectorOf st.u0 p [n] := fun p hp => by
    rw [c3 p hp, matrixOf_no_plates hR.shape]
  refine ⟨⟨f0, f1, m0, m1, g'⟩, ?_, ⟨a2, b2, c2, d2, g2, fun p hp => ?_⟩, c4⟩
  · unfold gaussianRotateArr
    rw [if_neg (by simp)]
    simp only [List.length_cons, List.length_nil, zero_add] at a1 c1
    simp only [v1, a1, b1, c1, d1, g1, bind, Except.bind, pure, Except.pure]
  · refine rotate_on hR.invertible (h.moments p hp) ?_ ?_ (c4 p hp) ?_ ?_
    · rw [a3 p hp, matrixOf_no_plates t1, t2, v3]
    · rw [b3 p hp, t2, v3]
    · rw [d3 p hp, r2]
    · rw [g3, l2]

/-- **C82 fails for `Gaussian` arrays with another number of axes**, which are not implemented. -/
theorem C82_gaussian_rotate_refuted {inv logdet : Option (Arr ℝ)} {st : GaussArrays} (hs : s.length ≠ 1) :
    gaussianRotateArr s R inv logdet st = .error .notImplemented := by
  unfold gaussianRotateArr; rw [if_pos hs]; rfl

/-! ## translate -/

theorem checkShape1_platesDims {plates dims sh : List Nat} (h : PlatesDims sh plates dims) : checkShape1 plates dims sh true = .ok () := by
  classical
  unfold checkShape1
  rw [if_neg (by simp)]
  by_cases hd : dims.length = 0
  · rw [if_pos hd, isShapeSubset_ok_decide]
    simp [bind, Except.bind, h.broadcastsTo]
    rfl
  · obtain ⟨S, rfl, hS⟩ := h
    rw [if_neg hd, isShapeSubset_ok_decide]
    simp [bind, Except.bind, hS]
    rfl

theorem checkShape_two {plates d e : List Nat} {X Y : Arr ℝ} (hX : PlatesDims X.shape plates d) (hY : PlatesDims Y.shape plates e) :
    checkShape plates [d, e] [X, Y] true = .ok () := by
  unfold checkShape
  rw [if_neg (by simp), forM_except_ok]
  intro q hq
  simp only [List.zip_cons_cons, List.zip_nil_right, List.mem_cons, List.not_mem_nil, or_false] at hq
  rcases hq with rfl | rfl
  · exact checkShape1_platesDims hX
  · exact checkShape1_platesDims hY

theorem vectorOf_sum {X Y Z : Arr ℝ} (h : ∀ c, Z.at c = X.at c + Y.at c) (p s : List Nat) :
    vectorOf Z p s = vectorOf X p s + vectorOf Y p s := by
  funext i; simp [vectorOf, h]

theorem matrixOf_sum {X Y Z : Arr ℝ} (h : ∀ c, Z.at c = X.at c + Y.at c) (p s t : List Nat) :
    matrixOf Z p s t = matrixOf X p s t + matrixOf Y p s t := by
  ext i j; simp [matrixOf, h]

/-- **C82** `translate` of Gaussian nodes over any axes: the stored arrays stay consistent on every plate, and the bias is added to the
mean. -/
theorem C82_translate {d : Arr ℝ} {st : GaussArrays} (h : GaussNodeOn P s st.phi0 st.phi1 st.u0 st.u1 st.g)
    (hsym : ∀ p ∈ indices P, (matrixOf st.phi1 p s s)ᵀ = matrixOf st.phi1 p s s) (hd : PlatesDims d.shape P s) :
    ∃ st', translateArr P s d st = .ok st' ∧ GaussNodeOn P s st'.phi0 st'.phi1 st'.u0 st'.u1 st'.g ∧
      ∀ p ∈ indices P, vectorOf st'.u0 p s = vectorOf st.u0 p s + vectorOf d p s := by
  obtain ⟨xb, a1, a2, a3⟩ := po_outer h.s_u0 hd rfl
  obtain ⟨bx, b1, b2, b3⟩ := po_transpose a2 rfl
  obtain ⟨bb, c1, c2, c3⟩ := po_outer hd hd rfl
  obtain ⟨m0, d1, d2, d3⟩ := po_add h.s_u0 hd
  obtain ⟨t1, e1, e2, e3⟩ := po_add h.s_u1 a2
  obtain ⟨t2, f1, f2, f3⟩ := po_add e2 b2
  obtain ⟨m1, g1, g2, g3⟩ := po_add f2 c2
  obtain ⟨lb, i1, i2, i3⟩ := po_mvdot (po_scale (-2) h.s_phi1) hd rfl
  obtain ⟨q1, j1, j2, j3⟩ := po_inner hd i2
  obtain ⟨q2, k1, k2, k3⟩ := po_inner h.s_u0 i2
  obtain ⟨dg, l1, _, l2, l3⟩ := npAdd_common (X := q1) (Y := npScaleBy 2 q2) j2 k2
  obtain ⟨f0, n1, n2, n3⟩ := po_add h.s_phi0 i2
  obtain ⟨g, o1, _, o2, o3⟩ := npAdd_common (X := st.g) (Y := npScaleBy (-0.5) dg) h.s_g l2
  refine ⟨⟨f0, st.phi1, m0, m1, g⟩, ?_, ⟨n2, h.s_phi1, d2, g2, o2, fun p hp => ?_⟩, fun p _ => vectorOf_sum d3 p s⟩
  · unfold translateArr
    have ht : ¬(s.length > 0 ∧ trailingShape d.shape s.length ≠ s) := by
      obtain ⟨S, hS, _⟩ := hd
      rw [hS, trailing_append]
      simp
    rw [if_neg ht]
    simp only [a1, b1, c1, d1, e1, f1, g1, i1, j1, k1, l1, n1, o1, checkShape_two d2 g2, checkShape_two n2 h.s_phi1, bind,
      Except.bind, pure, Except.pure]
  · have hm := h.moments p hp
    have hL : ((-2 : ℝ) • matrixOf st.phi1 p s s)ᵀ = (-2 : ℝ) • matrixOf st.phi1 p s s := by rw [transpose_smul, hsym p hp]
    have hlb : vectorOf lb p s = ((-2 : ℝ) • matrixOf st.phi1 p s s) *ᵥ vectorOf d p s := by rw [i3 p hp, matrixOf_scaleBy]
    constructor
    · show ((-2 : ℝ) • matrixOf st.phi1 p s s) *ᵥ vectorOf m0 p s = vectorOf f0 p s
      rw [vectorOf_sum d3, vectorOf_sum n3, mulVec_add, hm.mean, hlb]
    · show ((-2 : ℝ) • matrixOf st.phi1 p s s) * (matrixOf m1 p s s - vecMulVec (vectorOf m0 p s) (vectorOf m0 p s)) = 1
      rw [← hm.second]
      congr 1
      rw [matrixOf_sum g3, matrixOf_sum f3, matrixOf_sum e3, b3 p hp, a3 p hp, c3 p hp, vectorOf_sum d3, vecMulVec_add, add_vecMulVec,
        add_vecMulVec, transpose_vecMulVec]
      abel
    · show g.at (coord p) = -(1 / 2) * (vectorOf m0 p s ⬝ᵥ vectorOf f0 p s) + 1 / 2 * Real.log ((-2 : ℝ) • matrixOf st.phi1 p s s).det
      rw [o3, hm.cgf, scaleBy_at, l3, scaleBy_at, j3 p hp, k3 p hp, vectorOf_sum d3, vectorOf_sum n3, hlb]
      simp only [add_dotProduct, dotProduct_add]
      have e : vectorOf d p s ⬝ᵥ vectorOf st.phi0 p s
          = vectorOf st.u0 p s ⬝ᵥ ((-2 : ℝ) • matrixOf st.phi1 p s s) *ᵥ vectorOf d p s := by
        rw [← hm.mean, dot_symm hL]
      rw [e]
      ring

/-- **C82** A bias whose last axes are not those of the variable raises. -/
theorem C82_translate_raises {d : Arr ℝ} {st : GaussArrays} (hs : s ≠ []) (hd : trailingShape d.shape s.length ≠ s) :
    translateArr P s d st = .error .valueError := by
  unfold translateArr
  rw [if_pos ⟨List.length_pos_iff.2 hs, hd⟩]
  rfl

end

end Verif
