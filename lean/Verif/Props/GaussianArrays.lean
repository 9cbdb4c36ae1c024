import Verif.Lemmas.PlateOps
import Verif.Model.GaussianArrays
import Verif.Spec.GaussianArrays
import Verif.Props.Support
import Verif.Props.EuclideanGradient

/-!
# C80: the formulas of the Gaussian distributions hold on every plate, for variables over any axes
-/

namespace Verif
open Spec Matrix

section
variable {P P0 P1 Q s : List Nat} {phi0 phi1 : Arr ℝ}

/-- the solver, for any number of axes -/
theorem solve_any {A U b : Arr ℝ} {pu pb : List Nat} (h : IsCholeskyOf A U pu s) (hb : b.shape = pb ++ s)
    (hQ : IsBroadcast [pu, pb] Q)
    (hsub : s ≠ [] → (∀ k, axisLen pu k = 1 ∨ (k < pb.length ∧ axisLen pu k = axisLen pb k)) ∧ pu.length ≤ pb.length + 1) :
    ∃ x, cholSolveAxes U b s.length = .ok x ∧ x.shape = Q ++ s ∧
      ∀ p ∈ indices Q, matrixOf A p s s *ᵥ vectorOf x p s = vectorOf b p s := by
  rcases eq_or_ne s [] with rfl | hs
  · obtain ⟨x, h1, _, h2, h3⟩ := C76_solve_no_axes (b := b) h (isBroadcast_swap (by simpa [hb] using hQ))
    refine ⟨x, h1, by simp [h2], fun p hp => ?_⟩
    funext i
    have e : i.1 = [] := mem_indices_nil.1 (multi_mem i)
    simp only [mulVec, dotProduct, Fintype.sum_unique]
    have e' : ((default : MultiIndex []).1 : List Nat) = [] := rfl
    have := h3 _ (coord_valid hp)
    simp only [matrixOf, vectorOf, of_apply, e, e', List.append_nil]
    rwa [Arr.at_of_valid x (by rw [h2]; exact coord_valid hp)]
  · obtain ⟨x, pl, h1, h2, h3, h4⟩ := C76_solve h hs hb (hsub hs).1 (hsub hs).2
    obtain rfl := isBroadcast_unique h3 hQ
    exact ⟨x, h1, h2, h4⟩

theorem matrixOf_neg_two (X : Arr ℝ) (p s t : List Nat) : matrixOf (npScaleBy (-2) X) p s t = (-2 : ℝ) • matrixOf X p s t := by
  ext i j; simp [matrixOf, scaleBy_at]

theorem npAdd_swap {X Y r : Arr ℝ} (h : npAdd X Y = .ok r) : npAdd Y X = .ok r := by
  unfold npAdd at h ⊢
  rcases hb : broadcastedShape [X.shape, Y.shape] with e | S
  · rw [hb] at h; cases h
  · rw [hb] at h
    rw [(broadcastedShape_ok _ _).2 (isBroadcast_swap ((broadcastedShape_ok _ _).1 hb)), ← h]
    show Except.ok (⟨S, fun c => Y.at c + X.at c⟩ : Arr ℝ) = Except.ok ⟨S, fun c => X.at c + Y.at c⟩
    simp only [add_comm]

/-- the steps that both classes share -/
theorem gaussian_moments_core (h0 : phi0.shape = P0 ++ s) (h1 : phi1.shape = P1 ++ s ++ s)
    (hpd : ∀ p ∈ indices P1, ((-2 : ℝ) • matrixOf phi1 p s s).PosDef) (hQ : IsBroadcast [P1, P0] Q)
    (hsub : s ≠ [] → (∀ k, axisLen P1 k = 1 ∨ (k < P0.length ∧ axisLen P1 k = axisLen P0 k)) ∧ P1.length ≤ P0.length + 1) :
    ∃ L Cov mu ip ld g oo u1, cholAxes (npScaleBy (-2) phi1) s.length = .ok L ∧ cholInvAxes L s.length = .ok Cov ∧
      cholSolveAxes L phi0 s.length = .ok mu ∧ linInner [mu, phi0] s.length = .ok ip ∧ cholLogdetAxes L s.length = .ok ld ∧
      npAdd (npScaleBy (-0.5) ip) (npScaleBy 0.5 ld) = .ok g ∧ linOuter mu mu s.length = .ok oo ∧
      npAdd Cov oo = .ok u1 ∧ npAdd oo Cov = .ok u1 ∧ mu.shape = Q ++ s ∧ PlatesDims u1.shape Q (s ++ s) ∧
      BroadcastsTo g.shape Q ∧ ∀ p ∈ indices Q, GaussianMomentsOn s p phi0 phi1 mu u1 g := by
  obtain ⟨L, c1, cL⟩ := C76_chol (npScaleBy (-2) phi1) P1 s h1 fun p hp => by
    rw [matrixOf_neg_two]; exact hpd p hp
  obtain ⟨Cov, c2, c2s, c2v⟩ := C76_inverse cL
  obtain ⟨mu, c3, c3s, c3v⟩ := solve_any cL h0 hQ hsub
  have b1 : BroadcastsTo P1 Q := IsBroadcast.to hQ (by simp)
  have b0 : BroadcastsTo P0 Q := IsBroadcast.to hQ (by simp)
  have pm : PlatesDims mu.shape Q s := ⟨Q, c3s, BroadcastsTo_refl Q⟩
  obtain ⟨ip, c4, c4s, c4v⟩ := po_inner pm (⟨P0, h0, b0⟩ : PlatesDims phi0.shape Q s)
  obtain ⟨ld, c5, c5s, c5v⟩ := C76_logdet cL
  obtain ⟨g, c6, _, c6s, c6v⟩ := npAdd_common (X := npScaleBy (-0.5) ip) (Y := npScaleBy 0.5 ld) (B := Q)
    (by show BroadcastsTo ip.shape Q; exact c4s) (by show BroadcastsTo ld.shape Q; rw [c5s]; exact b1)
  obtain ⟨oo, c7, c7s, c7v⟩ := po_outer pm pm rfl
  have pc : PlatesDims Cov.shape Q (s ++ s) := ⟨P1, by rw [c2s, List.append_assoc], b1⟩
  obtain ⟨u1, c8, c8s, c8v⟩ := po_add pc c7s
  refine ⟨L, Cov, mu, ip, ld, g, oo, u1, c1, c2, c3, c4, c5, c6, c7, c8, npAdd_swap c8, c3s, c8s, c6s, fun p hp => ?_⟩
  obtain ⟨q, hq, e⟩ := exists_restrict b1.2 hp
  refine ⟨?_, ?_, ?_⟩
  · rw [← matrixOf_neg_two]; exact c3v p hp
  · have e1 : matrixOf u1 p s s - vecMulVec (vectorOf mu p s) (vectorOf mu p s) = matrixOf Cov p s s := by
      rw [← c7v p hp]
      ext i j
      simp only [Matrix.sub_apply, matrixOf, of_apply, c8v]
      ring
    rw [e1, ← matrixOf_neg_two, matrixOf_wider (X := npScaleBy (-2) phi1) h1 (BroadcastsTo_refl P1) e,
      matrixOf_wider c2s (BroadcastsTo_refl P1) e]
    exact c2v q hq
  · rw [c6v, scaleBy_at, scaleBy_at, c4v p hp, at_wider (X := ld) (Q := P1) (by rw [c5s]; exact BroadcastsTo_refl P1) e,
      Arr.at_of_valid ld (by rw [c5s]; exact coord_valid hq), c5v q hq, ← matrixOf_neg_two,
      matrixOf_wider (X := npScaleBy (-2) phi1) h1 (BroadcastsTo_refl P1) e]
    norm_num

/-! ## Reshaping -/

/-- the positions of a variable in the order of the rows -/
noncomputable def flatIx (s : List Nat) : MultiIndex [s.prod] ≃ MultiIndex s := (singleEquiv s.prod).trans (rowEquiv s).symm

theorem flatIx_val (s : List Nat) (a : MultiIndex [s.prod]) : a.1 = [rowMajor s (flatIx s a)] := by
  have h : rowMajor s (flatIx s a) = (singleEquiv s.prod a : Nat) := rowMajor_symm _
  rw [h]
  exact congrArg Subtype.val ((singleEquiv s.prod).symm_apply_apply a).symm

theorem reshape_plates {X : Arr ℝ} {S t : List Nat} (hX : X.shape = S ++ s) (ht : t.prod = s.prod) :
    ∃ Y, npReshape X (S ++ t) = .ok Y ∧ Y.shape = S ++ t ∧
      ∀ p ∈ indices S, ∀ i ∈ indices s, ∀ j ∈ indices t, rowMajor t j = rowMajor s i →
        Y.at (coord (p ++ j)) = X.at (coord (p ++ i)) := by
  obtain ⟨Y, hr⟩ : ∃ Y, npReshape X (S ++ t) = .ok Y := ⟨_, by rw [npReshape, if_pos (by rw [hX]; simp [ht])]⟩
  refine ⟨Y, hr, (npReshape_get hr).1, fun p hp i hi j hj h => ?_⟩
  have m1 : p ++ i ∈ indices X.shape := by rw [hX]; exact append_mem_indices hp hi
  have m2 : p ++ j ∈ indices Y.shape := by rw [(npReshape_get hr).1]; exact append_mem_indices hp hj
  rw [Arr.at_of_valid _ (coord_valid m1), Arr.at_of_valid _ (coord_valid m2)]
  refine npReshape_index hr ?_ m1 ?_
  · simp [length_of_mem_indices hp, length_of_mem_indices hj]
  · rw [hX, rowMajor_append (length_of_mem_indices hp), rowMajor_append (length_of_mem_indices hp), ht, h]

theorem flatten_vec {X : Arr ℝ} {S : List Nat} (hX : X.shape = S ++ s) (hS : BroadcastsTo S Q) :
    ∃ Y, npReshape X (S ++ [s.prod]) = .ok Y ∧ Y.shape = S ++ [s.prod] ∧
      ∀ p ∈ indices Q, vectorOf Y p [s.prod] = vectorOf X p s ∘ flatIx s := by
  obtain ⟨Y, h1, h2, h3⟩ := reshape_plates (t := [s.prod]) hX (by simp)
  refine ⟨Y, h1, h2, fun p hp => ?_⟩
  obtain ⟨q, hq, e⟩ := exists_restrict hS.2 hp
  rw [vectorOf_wider h2 (BroadcastsTo_refl S) e, vectorOf_wider hX (BroadcastsTo_refl S) e]
  funext a
  refine h3 q hq _ (multi_mem _) _ (multi_mem a) ?_
  rw [flatIx_val s a]
  simp [rowMajor]

theorem unflatten_vec {X : Arr ℝ} {S : List Nat} (hX : X.shape = S ++ [s.prod]) (hS : BroadcastsTo S Q) :
    ∃ Y, npReshape X (S ++ s) = .ok Y ∧ Y.shape = S ++ s ∧
      ∀ p ∈ indices Q, vectorOf X p [s.prod] = vectorOf Y p s ∘ flatIx s := by
  obtain ⟨Y, h1, h2, h3⟩ := reshape_plates (t := s) hX (by simp)
  refine ⟨Y, h1, h2, fun p hp => ?_⟩
  obtain ⟨q, hq, e⟩ := exists_restrict hS.2 hp
  rw [vectorOf_wider h2 (BroadcastsTo_refl S) e, vectorOf_wider hX (BroadcastsTo_refl S) e]
  funext a
  refine (h3 q hq _ (multi_mem a) _ (multi_mem _) ?_).symm
  rw [flatIx_val s a]
  simp [rowMajor]

theorem flatIx_pair (s : List Nat) (a b : MultiIndex [s.prod]) :
    rowMajor (s ++ s) ((flatIx s a).1 ++ (flatIx s b).1) = rowMajor [s.prod, s.prod] (a.1 ++ b.1) := by
  rw [rowMajor_append (length_of_mem_indices (multi_mem _)), flatIx_val s a, flatIx_val s b]
  simp [rowMajor]

theorem pair_mem {s t : List Nat} (a : MultiIndex s) (b : MultiIndex t) : a.1 ++ b.1 ∈ indices (s ++ t) :=
  append_mem_indices (multi_mem a) (multi_mem b)

theorem flatten_mat {X : Arr ℝ} {S : List Nat} (hX : X.shape = S ++ (s ++ s)) (hS : BroadcastsTo S Q) :
    ∃ Y, npReshape X (S ++ [s.prod, s.prod]) = .ok Y ∧ Y.shape = S ++ [s.prod, s.prod] ∧
      ∀ p ∈ indices Q, matrixOf Y p [s.prod] [s.prod] = (matrixOf X p s s).submatrix (flatIx s) (flatIx s) := by
  obtain ⟨Y, h1, h2, h3⟩ := reshape_plates (t := [s.prod, s.prod]) hX (by simp)
  refine ⟨Y, h1, h2, fun p hp => ?_⟩
  obtain ⟨q, hq, e⟩ := exists_restrict hS.2 hp
  rw [matrixOf_wider (pa := S) (by simp [h2]) (BroadcastsTo_refl S) e,
    matrixOf_wider (pa := S) (X := X) (by simp [hX]) (BroadcastsTo_refl S) e]
  ext a b
  simp only [submatrix_apply, matrixOf, of_apply, List.append_assoc]
  exact h3 q hq _ (pair_mem _ _) _ (pair_mem a b) (flatIx_pair s a b).symm

theorem unflatten_mat {X : Arr ℝ} {S : List Nat} (hX : X.shape = S ++ [s.prod, s.prod]) (hS : BroadcastsTo S Q) :
    ∃ Y, npReshape X (S ++ (s ++ s)) = .ok Y ∧ Y.shape = S ++ (s ++ s) ∧
      ∀ p ∈ indices Q, matrixOf X p [s.prod] [s.prod] = (matrixOf Y p s s).submatrix (flatIx s) (flatIx s) := by
  obtain ⟨Y, h1, h2, h3⟩ := reshape_plates (t := s ++ s) hX (by simp)
  refine ⟨Y, h1, h2, fun p hp => ?_⟩
  obtain ⟨q, hq, e⟩ := exists_restrict hS.2 hp
  rw [matrixOf_wider (pa := S) (X := Y) (by simp [h2]) (BroadcastsTo_refl S) e,
    matrixOf_wider (pa := S) (X := X) (by simp [hX]) (BroadcastsTo_refl S) e]
  ext a b
  simp only [submatrix_apply, matrixOf, of_apply, List.append_assoc]
  exact (h3 q hq _ (pair_mem a b) _ (pair_mem _ _) (flatIx_pair s a b)).symm

theorem dot_flat {m n : Type} [Fintype m] [Fintype n] (e : m ≃ n) (v w : n → ℝ) : (v ∘ e) ⬝ᵥ (w ∘ e) = v ⬝ᵥ w :=
  e.sum_comp fun i => v i * w i

/-- the moments of the flattened arrays are the flattened moments -/
theorem momentsOn_flat {p : List Nat} {X0 X1 Y0 Y1 m0 m1 n0 n1 g : Arr ℝ}
    (e0 : vectorOf Y0 p [s.prod] = vectorOf X0 p s ∘ flatIx s)
    (e1 : matrixOf Y1 p [s.prod] [s.prod] = (matrixOf X1 p s s).submatrix (flatIx s) (flatIx s))
    (e2 : vectorOf m0 p [s.prod] = vectorOf n0 p s ∘ flatIx s)
    (e3 : matrixOf m1 p [s.prod] [s.prod] = (matrixOf n1 p s s).submatrix (flatIx s) (flatIx s))
    (h : GaussianMomentsOn [s.prod] p Y0 Y1 m0 m1 g) : GaussianMomentsOn s p X0 X1 n0 n1 g := by
  obtain ⟨h1, h2, h3⟩ := h
  rw [e0, e1, e2] at h1
  rw [e1, e2, e3] at h2
  rw [e0, e1, e2, dot_flat] at h3
  refine ⟨?_, ?_, ?_⟩
  · funext i
    have := congrFun h1 ((flatIx s).symm i)
    simp only [Function.comp, Equiv.apply_symm_apply] at this
    rw [← this]
    simp only [mulVec, dotProduct, Matrix.smul_apply, submatrix_apply, Equiv.apply_symm_apply]
    exact ((flatIx s).sum_comp fun j => ((-2 : ℝ) • matrixOf X1 p s s i j) * vectorOf n0 p s j).symm
  · have e : (((-2 : ℝ) • matrixOf X1 p s s) *
        (matrixOf n1 p s s - vecMulVec (vectorOf n0 p s) (vectorOf n0 p s))).submatrix (flatIx s) (flatIx s) = 1 := by
      rw [← h2, ← submatrix_mul_equiv _ _ (flatIx s) (flatIx s) (flatIx s)]
      rfl
    ext i j
    have := congrFun (congrFun e ((flatIx s).symm i)) ((flatIx s).symm j)
    simpa [submatrix_apply, one_apply] using this
  · rw [h3]
    have e : ((-2 : ℝ) • (matrixOf X1 p s s).submatrix (flatIx s) (flatIx s)) = ((-2 : ℝ) • matrixOf X1 p s s).submatrix (flatIx s) (flatIx s) := rfl
    rw [e, det_submatrix_equiv_self]

theorem npMap2_common {X Y : Arr ℝ} {B : List Nat} (f : ℝ → ℝ → ℝ) (hX : BroadcastsTo X.shape B) (hY : BroadcastsTo Y.shape B) :
    ∃ r, npMap2 f X Y = .ok r ∧ IsBroadcast [X.shape, Y.shape] r.shape ∧ BroadcastsTo r.shape B ∧
      ∀ c, r.at c = f (X.at c) (Y.at c) := by
  obtain ⟨s, hs, hb⟩ := isBroadcast_of_common hX hY
  refine ⟨_, npMap2_ok hs, hs, hb, fun c => ?_⟩
  show f (X.at (restrict s c)) (Y.at (restrict s c)) = _
  rw [at_isBroadcast hs (by simp) c, at_isBroadcast hs (by simp) c]

/-! ## Moments -/

/-- **C80** The moments and the cumulant function of `Gaussian` on every plate, over any axes. -/
theorem C80_moments_partial (h0 : phi0.shape = P0 ++ s) (h1 : phi1.shape = P1 ++ s ++ s) (hne : phi0.shape ≠ [])
    (hpd : ∀ p ∈ indices P1, ((-2 : ℝ) • matrixOf phi1 p s s).PosDef) (hQ : IsBroadcast [P1, P0] Q)
    (hsub : s ≠ [] → (∀ k, axisLen P1 k = 1 ∨ (k < P0.length ∧ axisLen P1 k = axisLen P0 k)) ∧ P1.length ≤ P0.length + 1) :
    ∃ u0 u1 g, gaussianMomentsArr s phi0 phi1 = .ok (u0, u1, g) ∧ u0.shape = Q ++ s ∧ PlatesDims u1.shape Q (s ++ s) ∧
      BroadcastsTo g.shape Q ∧ ∀ p ∈ indices Q, GaussianMomentsOn s p phi0 phi1 u0 u1 g := by
  obtain ⟨L, Cov, mu, ip, ld, g, oo, u1, c1, c2, c3, c4, c5, c6, c7, c8, _, d1, d2, d3, d4⟩ :=
    gaussian_moments_core h0 h1 hpd hQ hsub
  refine ⟨mu, u1, g, ?_, d1, d2, d3, d4⟩
  unfold gaussianMomentsArr
  simp only [c1, c2, c3, c4, c5, c6, c7, c8, bind, Except.bind, pure, Except.pure]
  rw [if_neg (by simpa using hne)]

/-- **C80 fails for `Gaussian` without axes and without plates**: the unused line `k = np.shape(phi[0])[-1]` raises. -/
theorem C80_moments_refuted (a b : ℝ) : gaussianMomentsArr [] ⟨[], fun _ => a⟩ ⟨[], fun _ => b⟩ = .error .indexError := by
  simp [gaussianMomentsArr, cholAxes, bind, Except.bind, pure, Except.pure, throw, throwThe, MonadExceptOf.throw]

/-- **C80** The moments and the cumulant function of `GaussianARD` on every plate, over any axes. -/
theorem C80_ard_moments (h0 : phi0.shape = P0 ++ s) (h1 : phi1.shape = P1 ++ s ++ s)
    (hpd : ∀ p ∈ indices P1, ((-2 : ℝ) • matrixOf phi1 p s s).PosDef) (hQ : IsBroadcast [P1, P0] Q)
    (hsub : s ≠ [] → (∀ k, axisLen P1 k = 1 ∨ (k < P0.length ∧ axisLen P1 k = axisLen P0 k)) ∧ P1.length ≤ P0.length + 1) :
    ∃ u0 u1 g, ardMomentsArr s phi0 phi1 = .ok (u0, u1, g) ∧ u0.shape = Q ++ s ∧ PlatesDims u1.shape Q (s ++ s) ∧
      BroadcastsTo g.shape Q ∧ ∀ p ∈ indices Q, GaussianMomentsOn s p phi0 phi1 u0 u1 g := by
  have b1 : BroadcastsTo P1 Q := IsBroadcast.to hQ (by simp)
  have b0 : BroadcastsTo P0 Q := IsBroadcast.to hQ (by simp)
  rcases eq_or_ne s [] with rfl | hs
  · have h0' : BroadcastsTo phi0.shape Q := by simpa [h0] using b0
    have h1' : BroadcastsTo phi1.shape Q := by simpa [h1] using b1
    obtain ⟨u0, a1, a2, _, a3⟩ := npMap2_common (fun a b : ℝ => -a / (2 * b)) h0' h1'
    have a2' : u0.shape = Q := isBroadcast_unique a2 (isBroadcast_swap (by simpa [h0, h1] using hQ))
    obtain ⟨u1, b1, _, b2, b3⟩ := npMap2_common (fun a b : ℝ => a ^ 2 - 1 / (2 * b)) (X := u0) (B := Q)
      (by rw [a2']; exact BroadcastsTo_refl Q) h1'
    obtain ⟨ip, c1, _, c2, c3⟩ := npMap2_common (fun a b : ℝ => -0.5 * a * b) (X := u0) (B := Q)
      (by rw [a2']; exact BroadcastsTo_refl Q) h0'
    obtain ⟨g, d1, _, d2, d3⟩ := npAdd_common (X := ip) (Y := ⟨phi1.shape, fun c => 0.5 * Real.log (-2 * phi1.get c)⟩) (B := Q) c2 h1'
    refine ⟨u0, u1, g, ?_, by simpa using a2', ⟨u1.shape, by simp, b2⟩, d2, fun p hp => ?_⟩
    · unfold ardMomentsArr
      rw [if_pos (by simp)]
      simp only [a1, b1, c1, d1, bind, Except.bind, pure, Except.pure]
    · have hp1 : phi1.at (coord p) < 0 := by
        obtain ⟨q, hq, e⟩ := exists_restrict (IsBroadcast.to hQ (s := P1) (by simp)).2 hp
        have := (hpd q hq).diag_pos (i := default)
        have e' : ((default : MultiIndex []).1 : List Nat) = [] := rfl
        simp only [Matrix.smul_apply, matrixOf, of_apply, e', List.append_nil, smul_eq_mul] at this
        rw [at_wider (X := phi1) (Q := P1) (by simp [h1, BroadcastsTo_refl]) e]
        linarith
      have hv : ∀ (X : Arr ℝ) (i : MultiIndex []), vectorOf X p [] i = X.at (coord p) := fun X i => by
        simp [vectorOf, mem_indices_nil.1 (multi_mem i)]
      have hm : ∀ (X : Arr ℝ) (i j : MultiIndex []), matrixOf X p [] [] i j = X.at (coord p) := fun X i j => by
        simp [matrixOf, mem_indices_nil.1 (multi_mem i), mem_indices_nil.1 (multi_mem j)]
      have hne := hp1.ne
      refine ⟨?_, ?_, ?_⟩
      · funext i
        simp only [mulVec, dotProduct, Fintype.sum_unique, Matrix.smul_apply, hv, hm, smul_eq_mul, a3]
        field_simp
      · ext i j
        obtain rfl : i = j := Subsingleton.elim _ _
        simp only [mul_apply, Fintype.sum_unique, Matrix.smul_apply, Matrix.sub_apply, vecMulVec_apply, hv, hm, smul_eq_mul, b3,
          one_apply_eq]
        field_simp
        ring
      · have e : (⟨phi1.shape, fun c => 0.5 * Real.log (-2 * phi1.get c)⟩ : Arr ℝ).at (coord p)
            = 0.5 * Real.log (-2 * phi1.at (coord p)) := rfl
        rw [d3, c3, e, det_unique]
        simp only [dotProduct, Fintype.sum_unique, Matrix.smul_apply, hv, hm, smul_eq_mul]
        ring
  · have hl : ¬ s.length = 0 := by simpa using hs
    obtain ⟨f0, r1, r2, r3⟩ := flatten_vec (s := s) (S := P0) h0 b0
    obtain ⟨f1, r4, r5, r6⟩ := flatten_mat (s := s) (S := P1) (by simpa using h1) b1
    obtain ⟨f1', r4', _, r6'⟩ := flatten_mat (X := phi1) (s := s) (S := P1) (Q := P1) (by simpa using h1) (BroadcastsTo_refl P1)
    obtain rfl : f1' = f1 := Except.ok.inj (r4'.symm.trans r4)
    obtain ⟨L, Cov, mu, ip, ld, g, oo, u1, c1, c2, c3, c4, c5, c6, c7, _, c8, d1, d2, d3, d4⟩ :=
      gaussian_moments_core (s := [s.prod]) r2 (by simpa using r5) (fun p hp => by
        rw [r6' p hp]
        exact (hpd p hp).submatrix (flatIx s).injective) hQ (fun _ => hsub hs)
    obtain ⟨v0, q1, q2, q3⟩ := unflatten_vec (s := s) d1 (BroadcastsTo_refl Q)
    obtain ⟨S, d2, hS⟩ := d2
    obtain ⟨v1, q4, q5, q6⟩ := unflatten_mat (s := s) (by simpa using d2) hS
    refine ⟨v0, v1, g, ?_, q2, ⟨S, q5, hS⟩, d3, fun p hp => momentsOn_flat (r3 p hp) (r6 p hp) (q3 p hp) (q6 p hp) (d4 p hp)⟩
    unfold ardMomentsArr
    rw [if_neg hl]
    have t0 : phi0.shape.take (phi0.shape.length - s.length) = P0 := by rw [h0]; simp
    have t1 : phi1.shape.take (phi1.shape.length - 2 * s.length) = P1 := by
      rw [h1, List.append_assoc, List.take_append_of_le_length (by simp; omega)]
      simp; omega
    have t2 : mu.shape.take (mu.shape.length - 1) = Q := by rw [d1]; simp
    have t3 : u1.shape.take (u1.shape.length - 2) = S := by rw [d2]; simp
    simp only [List.length_singleton] at c1 c2 c3 c4 c5 c7
    simp only [t0, t1, r1, r4, c1, c2, c3, c4, c5, c6, c7, c8, t2, t3, q1, List.append_assoc, q4, bind, Except.bind, pure, Except.pure]

/-! ## From the parents -/

theorem full_platesDims (a : ℝ) (P s : List Nat) : PlatesDims (npFull a s).shape P s :=
  ⟨[], rfl, ⟨by simp, fun k => .inl (by simp [axisLen])⟩⟩

theorem full_at (a : ℝ) (s : List Nat) (c : Nat → Nat) : (npFull a s).at c = a := rfl

/-- **C80** `GaussianARD` reads the natural parameters from the parents: `Λμ` and `-½ diag Λ` on every plate. -/
theorem C80_ard_phi {u0 u2 : Arr ℝ} (h0 : BroadcastsTo u0.shape (P ++ s)) (h2 : BroadcastsTo u2.shape (P ++ s)) :
    ∃ f0 f1, ardPhiArr s u0 u2 = .ok (f0, f1) ∧ PlatesDims f0.shape P s ∧ PlatesDims f1.shape P (s ++ s) ∧
      ∀ p ∈ indices P, vectorOf f0 p s = vectorOf u0 p s ∧
        (-2 : ℝ) • matrixOf f1 p s s = diagonal (vectorOf u2 p s) := by
  have key : ∀ X : Arr ℝ, PlatesDims X.shape P s → (∀ c, X.at c = -0.5 * u2.at c) →
      ∃ Y, diagAxes X s.length = .ok Y ∧ PlatesDims Y.shape P (s ++ s) ∧
        ∀ p ∈ indices P, (-2 : ℝ) • matrixOf Y p s s = diagonal (vectorOf u2 p s) := by
    rintro X ⟨S, hX, hS⟩ hat
    obtain ⟨Y, y1, y2, y3⟩ := C79_diag hX
    refine ⟨Y, y1, ⟨S, by simpa using y2, hS⟩, fun p hp => ?_⟩
    obtain ⟨q, hq, e⟩ := exists_restrict hS.2 hp
    rw [matrixOf_wider y2 (BroadcastsTo_refl S) e, y3 q hq, ← vectorOf_wider hX (BroadcastsTo_refl S) e, ← diagonal_smul]
    congr 1
    funext i
    show -2 * X.at _ = u2.at _
    rw [hat]; ring
  unfold ardPhiArr
  rcases eq_or_ne s [] with rfl | hs
  · obtain ⟨Y, y1, y2, y3⟩ := key (npScaleBy (-0.5) u2) ⟨u2.shape, by show u2.shape = _; simp, by simpa using h2⟩ fun c => rfl
    refine ⟨u0, Y, ?_, ⟨u0.shape, by simp, by simpa using h0⟩, y2, fun p hp => ⟨rfl, y3 p hp⟩⟩
    simp only [List.length_nil] at y1
    simp [y1, bind, Except.bind, pure, Except.pure]
  · obtain ⟨X, x1, x2, x3⟩ := po_mul_left (full_platesDims 1 P s) h0
    obtain ⟨Z, z1, z2, z3⟩ := po_mul_left (Y := npScaleBy (-0.5) u2) (full_platesDims 1 P s) h2
    obtain ⟨Y, y1, y2, y3⟩ := key Z z2 fun c => by rw [z3, full_at, scaleBy_at]; ring
    refine ⟨X, Y, ?_, x2, y2, fun p hp => ⟨?_, y3 p hp⟩⟩
    · rw [if_pos (List.length_pos_iff.2 hs)]
      simp [x1, z1, y1, bind, Except.bind, pure, Except.pure]
    · funext i
      show X.at _ = u0.at _
      rw [x3, full_at, one_mul]

theorem sum_ones {u : Arr ℝ} (h : BroadcastsTo u.shape (P ++ s)) :
    ∃ y, sumMultiply [u, npFull 1 s] (.seq (lastAxes s.length)) true false = .ok y ∧ BroadcastsTo y.shape P ∧
      ∀ p ∈ indices P, y.at (coord p) = ∑ i : MultiIndex s, vectorOf u p s i := by
  obtain ⟨B, hB, hBP⟩ := isBroadcast_of_common h (full_platesDims 1 P s).broadcastsTo
  obtain ⟨S, rfl, hS⟩ := platesDims_of_isBroadcast hB hBP (by simp) (full_platesDims 1 P s)
  obtain ⟨y, h1, h2⟩ := C06_sum_axes_partial [u, npFull 1 s] (S ++ s) (lastAxes s.length) false (by simp) hB
  obtain ⟨h3, h4⟩ := sumLast_of_reduction (args := [u, npFull 1 s]) (n := s.length) (by simp) hB
    (fun p hp => names_lastAxes (by simp) hp) h2
  have h5 : y.shape = S := by rw [h3]; simp
  refine ⟨y, h1, by rwa [h5], fun p hp => ?_⟩
  rw [h4 P (coord p) (by rwa [h5]) (coord_valid hp)]
  have e : (S ++ s).drop ((S ++ s).length - s.length) = s := by simp
  rw [e, sumOver_multi]
  refine Finset.sum_congr rfl fun i _ => ?_
  simp only [vectorOf_joinC, List.map_cons, List.map_nil, List.prod_cons, List.prod_nil, full_at, mul_one]

/-- **C80** The cumulant function of `GaussianARD` at the parents, on every plate. -/
theorem C80_ard_cgf {u1 u3 : Arr ℝ} (h1 : BroadcastsTo u1.shape (P ++ s)) (h3 : BroadcastsTo u3.shape (P ++ s)) :
    ∃ g, ardCgfArr s u1 u3 = .ok g ∧ BroadcastsTo g.shape P ∧
      ∀ p ∈ indices P, g.at (coord p) = ∑ i : MultiIndex s, (-(1 / 2) * vectorOf u1 p s i + 1 / 2 * vectorOf u3 p s i) := by
  unfold ardCgfArr
  rcases eq_or_ne s [] with rfl | hs
  · obtain ⟨g, g1, _, g2, g3⟩ := npAdd_common (X := npScaleBy (-0.5) u1) (Y := npScaleBy 0.5 u3) (B := P)
      (by show BroadcastsTo u1.shape P; simpa using h1) (by show BroadcastsTo u3.shape P; simpa using h3)
    refine ⟨g, by simpa using g1, g2, fun p _ => ?_⟩
    have e' : ((default : MultiIndex []).1 : List Nat) = [] := rfl
    rw [g3, scaleBy_at, scaleBy_at, Fintype.sum_unique]
    simp only [vectorOf, e', List.append_nil]
    norm_num
  · obtain ⟨a, a1, a2, a3⟩ := sum_ones h1
    obtain ⟨b, b1, b2, b3⟩ := sum_ones h3
    obtain ⟨g, g1, _, g2, g3⟩ := npAdd_common (X := npScaleBy (-0.5) a) (Y := npScaleBy 0.5 b) (B := P) a2 b2
    refine ⟨g, ?_, g2, fun p hp => ?_⟩
    · rw [if_pos (List.length_pos_iff.2 hs)]
      simp [a1, b1, g1, bind, Except.bind]
    · rw [g3, scaleBy_at, scaleBy_at, a3 p hp, b3 p hp, Finset.mul_sum, Finset.mul_sum, ← Finset.sum_add_distrib]
      norm_num

/-- **C80** The message of `GaussianARD` to the parent, on every plate and for every element: against the moments
`αμ`, `αμ²`, `α`, `log α` of the parent it gives the expected log density `-½ (α x² - 2 αμ x + αμ²) + ½ log α`. -/
theorem C80_ard_message {u0 u1 : Arr ℝ} (h1 : PlatesDims u1.shape P (s ++ s)) :
    ∃ m0 m1 m2 m3, ardMessageArr s 0 u0 u1 = .ok (m0, m1, m2, m3) ∧ PlatesDims m2.shape P s ∧ m0.shape = u0.shape ∧
      m1.shape = s ∧ m3.shape = s ∧
      ∀ p ∈ indices P, ∀ i : MultiIndex s, ∀ am am2 a loga : ℝ,
        vectorOf m0 p s i * am + vectorOf m1 p s i * am2 + vectorOf m2 p s i * a + vectorOf m3 p s i * loga
          = -(1 / 2) * (a * matrixOf u1 p s s i i - 2 * am * vectorOf u0 p s i + am2) + 1 / 2 * loga := by
  obtain ⟨S, hu, hS⟩ := h1
  obtain ⟨d, d1, d2, d3⟩ := C79_get_diag_all (P := S) (s := s) (X := u1) (by simpa using hu)
  refine ⟨u0, npScaleBy (-0.5) (npFull 1 s), npScaleBy (-0.5) d, npScaleBy 0.5 (npFull 1 s), ?_, ⟨S, d2, hS⟩, rfl, rfl, rfl,
    fun p hp i am am2 a loga => ?_⟩
  · simp [ardMessageArr, d1, bind, Except.bind, pure, Except.pure]
  · obtain ⟨q, hq, e⟩ := exists_restrict hS.2 hp
    have e1 : vectorOf (npScaleBy (-0.5) d) p s i = -0.5 * matrixOf u1 p s s i i := by
      rw [vectorOf_scaleBy, vectorOf_wider d2 (BroadcastsTo_refl S) e, d3 q hq,
        matrixOf_wider (X := u1) (pa := S) (by simpa using hu) (BroadcastsTo_refl S) e]
      rfl
    have e2 : vectorOf (npScaleBy (-0.5) (npFull 1 s)) p s i = -0.5 := by
      show (-0.5 : ℝ) * 1 = _; norm_num
    have e3 : vectorOf (npScaleBy 0.5 (npFull 1 s)) p s i = 0.5 := by
      show (0.5 : ℝ) * 1 = _; norm_num
    rw [e1, e2, e3]
    ring

theorem C80_ard_message_raises {u0 u1 : Arr ℝ} {k : Nat} (hk : k ≠ 0) : ardMessageArr s k u0 u1 = .error .valueError := by
  simp [ardMessageArr, hk, bind, Except.bind, throw, throwThe, MonadExceptOf.throw]

/-- **C80** The mask of a plate counts for all elements of the variable. -/
theorem C80_ard_weights {w : Arr ℝ} (hw : BroadcastsTo w.shape P) :
    ∃ y, ardWeightsArr s 0 w = .ok y ∧ BroadcastsTo y.shape (P ++ s) ∧
      ∀ p, ∀ i ∈ indices s, y.at (coord (p ++ i)) = w.at (coord p) :=
  ⟨_, rfl, trailing_shape hw rfl, fun _ _ hi => trailing_at (length_of_mem_indices hi)⟩

/-! ## Fixed moments -/

/-- **C80** The moments of a fixed value of `GaussianARD`: `x` and `x xᵀ`, and the constant counts every element. -/
theorem C80_ard_fixed {x : Arr ℝ} (hx : x.shape = P ++ s) :
    ∃ u1, ardFixedArr s x = .ok ((x, u1), -(s.prod : ℝ) / 2 * Real.log (2 * Real.pi)) ∧ PlatesDims u1.shape P (s ++ s) ∧
      ∀ p ∈ indices P, matrixOf u1 p s s = vecMulVec (vectorOf x p s) (vectorOf x p s) := by
  obtain ⟨y, y1, y2, y3⟩ := po_outer (A := x) (B := x) (P := P) ⟨P, hx, BroadcastsTo_refl P⟩ ⟨P, hx, BroadcastsTo_refl P⟩ rfl
  refine ⟨y, ?_, y2, y3⟩
  unfold ardFixedArr
  rw [if_neg (by rw [hx, trailing_append]; simp)]
  simp [y1, bind, Except.bind, pure, Except.pure]

theorem C80_ard_fixed_raises {x : Arr ℝ} (hs : s ≠ []) (hx : trailingShape x.shape s.length ≠ s) :
    ardFixedArr s x = .error .valueError := by
  unfold ardFixedArr
  rw [if_pos ⟨List.length_pos_iff.2 hs, hx⟩]
  rfl

/-- **C80** The moments of a fixed value of `Gaussian`; the constant counts the elements of the last axis, which are all only
for a variable over one axis. -/
theorem C80_fixed_partial {x : Arr ℝ} (hx : x.shape = P ++ s) (hs : s ≠ []) :
    ∃ u1 f, gaussianFixedArr s x = .ok ((x, u1), f) ∧ PlatesDims u1.shape P (s ++ s) ∧
      (∀ p ∈ indices P, matrixOf u1 p s s = vecMulVec (vectorOf x p s) (vectorOf x p s)) ∧
      (s.length = 1 → f = -(s.prod : ℝ) / 2 * Real.log (2 * Real.pi)) := by
  obtain ⟨y, y1, y2, y3⟩ := po_outer (A := x) (B := x) (P := P) ⟨P, hx, BroadcastsTo_refl P⟩ ⟨P, hx, BroadcastsTo_refl P⟩ rfl
  refine ⟨y, -(axisLen x.shape 0 : ℝ) / 2 * Real.log (2 * Real.pi), ?_, y2, y3, fun h1 => ?_⟩
  · unfold gaussianFixedArr
    rw [if_neg (by rw [hx]; simp [hs])]
    simp [y1, bind, Except.bind, pure, Except.pure]
  · obtain ⟨d, rfl⟩ := List.length_eq_one_iff.1 h1
    rw [hx]
    simp [axisLen_append, axisLen]

/-! ## Gradient -/

/-- the steps of the gradient -/
theorem gradient_steps {g0' g1' x xx : Arr ℝ} (hs : s.length ≤ 1) (hg0 : PlatesDims g0'.shape P s)
    (hg1 : PlatesDims g1'.shape P (s ++ s)) (hx : PlatesDims x.shape P s) (hxx : PlatesDims xx.shape P (s ++ s)) :
    ∃ d0 d1, gaussianGradientArr s.length g0' g1' x xx = .ok (d0, d1) ∧ PlatesDims d0.shape P s ∧ PlatesDims d1.shape P (s ++ s) ∧
      ∀ p ∈ indices P, mkG (vectorOf d0 p s) (matrixOf d1 p s s)
        = gaussianGradient (mkG (vectorOf g0' p s) (matrixOf g1' p s s)) (mkG (vectorOf x p s) (matrixOf xx p s s)) := by
  obtain ⟨x_x, a1, a2, a3⟩ := po_outer hx hx rfl
  obtain ⟨Cov, b1, b2, b3⟩ := po_sub hxx a2
  obtain ⟨cg, c1, c2, c3⟩ := po_mvdot b2 hg0 rfl
  obtain ⟨cgx, d1, d2, d3⟩ := po_outer c2 hx rfl
  obtain ⟨gx, e1, e2, e3⟩ := po_mvdot hg1 hx rfl
  obtain ⟨cgg, f1, f2, f3⟩ := po_mvdot b2 e2 rfl
  obtain ⟨o0, k1, k2, k3⟩ := po_add c2 (po_scale 2 f2)
  obtain ⟨tr, l1, l2, l3⟩ := po_transpose d2 rfl
  obtain ⟨t1, m1, m2, m3⟩ := po_add d2 l2
  obtain ⟨gxx, n1, n2, n3⟩ := po_mmdot hg1 hxx hs
  obtain ⟨xgx, q1, q2, q3⟩ := po_mmdot hxx n2 hs
  obtain ⟨t2, r1, r2, r3⟩ := po_add m2 (po_scale 2 q2)
  obtain ⟨ip, v1, v2, v3⟩ := po_inner e2 hx
  obtain ⟨t3, w1, w2, w3⟩ := po_mul_left (Y := addTrailingAxes ip (2 * s.length)) (po_scale 2 a2)
    (trailing_shape v2 (by simp only [List.length_append]; omega))
  obtain ⟨o1, z1, z2, z3⟩ := po_sub r2 w2
  refine ⟨o0, o1, ?_, k2, z2, fun p hp => ?_⟩
  · unfold gaussianGradientArr
    simp only [a1, b1, c1, d1, e1, f1, k1, l1, m1, n1, q1, r1, v1, w1, z1, bind, Except.bind, pure, Except.pure]
  · have hC : matrixOf Cov p s s = matrixOf xx p s s - vecMulVec (vectorOf x p s) (vectorOf x p s) := by
      rw [← a3 p hp]
      ext i j
      simp only [matrixOf, of_apply, b3, Matrix.sub_apply]
    unfold gaussianGradient
    have h0 : ∀ (v : MultiIndex s → ℝ) (M : Matrix (MultiIndex s) (MultiIndex s) ℝ), g0 (mkG v M) = v := fun _ _ => rfl
    have h1 : ∀ (v : MultiIndex s → ℝ) (M : Matrix (MultiIndex s) (MultiIndex s) ℝ), g1 (mkG v M) = M := fun _ _ => rfl
    simp only [h0, h1]
    rw [← hC]
    congr 1
    · rw [← c3 p hp, ← e3 p hp, ← f3 p hp]
      funext i
      exact k3 _
    · rw [← c3 p hp, ← d3 p hp, ← l3 p hp, ← n3 p hp, ← q3 p hp, ← e3 p hp, ← v3 p hp, ← a3 p hp]
      ext i j
      have hij : (i.1 ++ j.1).length = 2 * s.length := by
        rw [List.length_append, length_of_mem_indices (multi_mem i), length_of_mem_indices (multi_mem j)]; omega
      simp only [matrixOf, of_apply, z3, r3, m3, w3, Matrix.sub_apply, Matrix.add_apply, Matrix.smul_apply, smul_eq_mul]
      rw [scaleBy_at, scaleBy_at, List.append_assoc, trailing_at (X := ip) (p := p) hij]
      ring

/-- the moments on a plate are those of the formulas -/
theorem momentsOn_eq {p : List Nat} {m M2 g : Arr ℝ} (h : GaussianMomentsOn s p phi0 phi1 m M2 g)
    (hpd : ((-2 : ℝ) • matrixOf phi1 p s s).PosDef) :
    gaussianMoments (mkG (vectorOf phi0 p s) (matrixOf phi1 p s s)) = mkG (vectorOf m p s) (matrixOf M2 p s s) := by
  have hu : IsUnit ((-2 : ℝ) • matrixOf phi1 p s s).det := hpd.det_pos.ne'.isUnit
  have e1 : ((-2 : ℝ) • matrixOf phi1 p s s)⁻¹ *ᵥ vectorOf phi0 p s = vectorOf m p s := by
    rw [← h.mean, mulVec_mulVec, nonsing_inv_mul _ hu, one_mulVec]
  have e2 : ((-2 : ℝ) • matrixOf phi1 p s s)⁻¹ = matrixOf M2 p s s - vecMulVec (vectorOf m p s) (vectorOf m p s) :=
    inv_eq_right_inv h.second
  unfold gaussianMoments
  have h0 : ∀ (v : MultiIndex s → ℝ) (M : Matrix (MultiIndex s) (MultiIndex s) ℝ), g0 (mkG v M) = v := fun _ _ => rfl
  have h1 : ∀ (v : MultiIndex s → ℝ) (M : Matrix (MultiIndex s) (MultiIndex s) ℝ), g1 (mkG v M) = M := fun _ _ => rfl
  simp only [h0, h1]
  rw [e1, e2, sub_add_cancel]

/-- **C80** `compute_gradient` applies the chain rule on every plate, for variables over at most one axis: along every direction
`(e, D)` with a symmetric matrix, the derivative of `g₀ · mean + ⟨g₁, second moment⟩` is `d₀ · e + ⟨d₁, D⟩`. -/
theorem C80_gradient_partial {g0' g1' x xx c : Arr ℝ} (hs : s.length ≤ 1) (hg0 : PlatesDims g0'.shape P s)
    (hg1 : PlatesDims g1'.shape P (s ++ s)) (hx : PlatesDims x.shape P s) (hxx : PlatesDims xx.shape P (s ++ s)) :
    ∃ d0 d1, gaussianGradientArr s.length g0' g1' x xx = .ok (d0, d1) ∧ PlatesDims d0.shape P s ∧ PlatesDims d1.shape P (s ++ s) ∧
      ∀ p ∈ indices P, ((-2 : ℝ) • matrixOf phi1 p s s).PosDef → GaussianMomentsOn s p phi0 phi1 x xx c →
        (matrixOf g1' p s s)ᵀ = matrixOf g1' p s s →
        ∀ (e : MultiIndex s → ℝ) (D : Matrix (MultiIndex s) (MultiIndex s) ℝ), Dᵀ = D →
          HasDerivAt (fun t : ℝ =>
            vectorOf g0' p s ⬝ᵥ gaussMean (vectorOf phi0 p s + t • e) (matrixOf phi1 p s s + t • D)
              + ∑ i, ∑ j, matrixOf g1' p s s i j * gaussSecond (vectorOf phi0 p s + t • e) (matrixOf phi1 p s s + t • D) i j)
            (vectorOf d0 p s ⬝ᵥ e + ∑ i, ∑ j, matrixOf d1 p s s i j * D i j) 0 := by
  obtain ⟨d0, d1, h1, h2, h3, h4⟩ := gradient_steps hs hg0 hg1 hx hxx
  refine ⟨d0, d1, h1, h2, h3, fun p hp hpd hm hsym e D hD => ?_⟩
  have h := IsChainRule.hasDerivAt (C57_gaussian (mkG (vectorOf phi0 p s) (matrixOf phi1 p s s)) hpd)
    (g := mkG (vectorOf g0' p s) (matrixOf g1' p s s)) (d := mkG e D) hsym hD
  rw [momentsOn_eq hm hpd, ← h4 p hp, mkG_dotProduct] at h
  refine hasDerivAt_of_eq h (fun t => ?_) rfl
  rw [mkG_dotProduct]
  rfl

/-- **C80 fails for variables over two axes or more**: `compute_gradient` raises, because `mmdot` is not implemented. -/
theorem C80_gradient_refuted {g0' g1' x xx : Arr ℝ} (hs : 2 ≤ s.length) (hg0 : PlatesDims g0'.shape P s)
    (hg1 : PlatesDims g1'.shape P (s ++ s)) (hx : PlatesDims x.shape P s) (hxx : PlatesDims xx.shape P (s ++ s)) :
    gaussianGradientArr s.length g0' g1' x xx = .error .exception := by
  obtain ⟨x_x, a1, a2, a3⟩ := po_outer hx hx rfl
  obtain ⟨Cov, b1, b2, b3⟩ := po_sub hxx a2
  obtain ⟨cg, c1, c2, c3⟩ := po_mvdot b2 hg0 rfl
  obtain ⟨cgx, d1, d2, d3⟩ := po_outer c2 hx rfl
  obtain ⟨gx, e1, e2, e3⟩ := po_mvdot hg1 hx rfl
  obtain ⟨cgg, f1, f2, f3⟩ := po_mvdot b2 e2 rfl
  obtain ⟨o0, k1, k2, k3⟩ := po_add c2 (po_scale 2 f2)
  obtain ⟨tr, l1, l2, l3⟩ := po_transpose d2 rfl
  obtain ⟨t1, m1, m2, m3⟩ := po_add d2 l2
  have n1 : mmDot g1' xx s.length = .error .exception := by
    obtain ⟨d, hd⟩ : ∃ d, s.length = d + 2 := ⟨s.length - 2, by omega⟩
    rw [hd]; exact C79_mmdot_refuted _ _ _
  unfold gaussianGradientArr
  simp only [a1, b1, c1, d1, e1, f1, k1, l1, m1, n1, bind, Except.bind]

/-! ## Random draws -/

theorem triSolve_spec {D : Nat} {U : Matrix (Fin D) (Fin D) ℝ} (hU : ∀ i j, j < i → U i j = 0) (hpos : ∀ i, 0 < U i i)
    (b : Nat → ℝ) : U *ᵥ (fun d : Fin D => triSolveVec U b d) = fun d : Fin D => b d := by
  have hdet : IsUnit U.det := by
    rw [det_of_upperTriangular (fun i j h => hU i j h)]
    exact (Finset.prod_pos fun i _ => hpos i).ne'.isUnit
  have e : (fun d : Fin D => triSolveVec U b d) = U⁻¹ *ᵥ fun j : Fin D => b j := by
    funext d
    simp [triSolveVec, d.2]
  rw [e, mulVec_mulVec, mul_nonsing_inv _ hdet, one_mulVec]

theorem triSolveVec_congr {D : Nat} {U : Matrix (Fin D) (Fin D) ℝ} {b b' : Nat → ℝ} {d : Nat} (h : ∀ m < D, b m = b' m) :
    triSolveVec U b d = triSolveVec U b' d := by
  unfold triSolveVec
  split
  · have : (fun j : Fin D => b j) = fun j : Fin D => b' j := funext fun j => h j j.2
    rw [this]
  · rfl

theorem solveTri_ok {A U z : Arr ℝ} {D : Nat} (h : IsCholeskyOf A U P1 [D]) (hz : z.shape = P ++ [D]) (hP : BroadcastsTo P1 P) :
    ∃ y, solveTriAxes U z 1 = .ok y ∧ y.shape = P ++ [D] ∧
      ∀ p ∈ indices P, upperOf (matrixOf U p [D] [D]) *ᵥ vectorOf y p [D] = vectorOf z p [D] := by
  have hU : U.shape = P1 ++ [D, D] := by simpa using h.shapeU
  have hsub : ∀ k, axisLen P1 k = 1 ∨ (k < P.length ∧ axisLen P1 k = axisLen P k) := fun k => by
    rcases hP.2 k with h1 | h1
    · exact .inl h1
    · rcases Nat.lt_or_ge k P.length with hk | hk
      · exact .inr ⟨hk, h1⟩
      · exact .inl (by rw [h1, axisLen_of_ge hk])
  let W : Arr (Matrix (Fin D) (Fin D) ℝ) := ⟨P1, fun p => triu (matAt U D (restrict P1 p))⟩
  have hget : ∀ c c', (∀ k < W.shape.length, c k = c' k) → W.get c = W.get c' := by
    intro c c' h
    have : restrict P1 c = restrict P1 c' := by
      funext k
      unfold restrict
      rcases Nat.lt_or_ge k P1.length with hk | hk
      · rw [h k hk]
      · rw [axisLen_of_ge hk]; simp
    simp only [W, this]
  have hlen : P1.length ≤ P.length + 1 := by have := hP.1; omega
  obtain ⟨out, h1, h2, h3⟩ := C49_own_matrix_partial triSolveVec W z P D hz hsub hlen hget
  obtain ⟨o', h1', h2', _⟩ := C49_values_partial triSolveVec W z P D hz _ h2 (by
      rcases h2.rank_le with hh | ⟨s, hs, hh⟩
      · omega
      · have hs' : s = W.shape ∨ s = P := by simpa using hs
        rcases hs' with e | e
        · rw [← hh, e]; exact hlen
        · rw [← hh, e]; omega)
  rw [h1] at h1'
  obtain rfl : out = o' := Except.ok.inj h1'
  have hd : out.shape.dropLast = P := by
    have h4 : BroadcastsTo P out.shape.dropLast := IsBroadcast.to h2 (by simp)
    obtain ⟨R, h5, h6⟩ := isBroadcast_of_common hP (BroadcastsTo_refl P)
    obtain rfl := isBroadcast_unique h5 h2
    exact axisLen_ext (le_antisymm h6.1 h4.1) fun k => by have := h4.2 k; have := h6.2 k; omega
  rw [hd] at h2'
  refine ⟨out, ?_, h2', fun p hp => ?_⟩
  · unfold solveTriAxes solveTriLoop
    rw [if_neg (by simp), hU, (axisLen_two P1 D D).1, take_two]
    exact h1
  · obtain ⟨q, hq, e⟩ := exists_restrict hP.2 hp
    rw [matrixOf_wider (X := U) h.shapeU (BroadcastsTo_refl P1) e]
    set T := triu (matAt U D (coord q)) with hT
    have hW : W.at (coord p) = T := by
      show triu (matAt U D (restrict P1 (restrict P1 (coord p)))) = _
      rw [← e, restrict_coord hq]
    have hTM : ∀ i j, T i j = upperOf (matrixOf U q [D] [D]) ((singleEquiv D).symm i) ((singleEquiv D).symm j) := fun i j => by
      rw [hT, triu, of_apply, upperOf, of_apply, matAt_eq hU hq, submatrix_apply]
      refine if_congr ?_ rfl rfl
      have r : ∀ a : Fin D, rowMajor [D] ((singleEquiv D).symm a).1 = a := fun a => by simp [rowMajor, singleEquiv, singleIx]
      rw [r, r]
      exact Fin.le_def
    have hout : ∀ d : Fin D, out.at (coord (p ++ [(d : Nat)])) = triSolveVec T (fun m => z.at (coord (p ++ [m]))) d := fun d => by
      have hv : ValidIn out.shape (coord (p ++ [(d : Nat)])) := by
        rw [h2']
        exact coord_valid (append_mem_indices hp (mem_indices_cons.2 ⟨d.2, mem_indices_nil.2 rfl⟩))
      have hsucc : (fun k => coord (p ++ [(d : Nat)]) (k + 1)) = coord p := by
        funext k; rw [coord_append']; simp
      have h0 : coord (p ++ [(d : Nat)]) 0 = d := by rw [coord_append']; simp [coord]
      rw [Arr.at_of_valid _ hv, h3 _ hv, hsucc, hW, h0]
      refine triSolveVec_congr fun m hm => ?_
      show z.get _ = z.get _
      congr 1
      funext k
      rcases k with _ | k
      · rw [Function.update_self]
        unfold restrict
        have h8 : axisLen z.shape 0 = D := by rw [hz]; simp [axisLen]
        have h9 : coord (p ++ [m]) 0 = m := by rw [coord_append']; simp [coord]
        rw [h8, h9]
        split <;> omega
      · rw [Function.update_of_ne (by omega)]
        unfold restrict
        rw [coord_append', coord_append']; simp
    have key := triSolve_spec (U := T) (fun i j hij => by simp [hT, triu, not_le.2 hij]) (fun i => by
      rw [hTM]
      simp only [upperOf, of_apply, le_refl, if_true]
      exact h.pos q hq _) (fun m => z.at (coord (p ++ [m])))
    funext i
    have hi : vectorOf z p [D] i = z.at (coord (p ++ [(singleEquiv D i : Nat)])) := by
      conv_lhs => rw [← (singleEquiv D).symm_apply_apply i]
      rfl
    rw [hi, ← congrFun key (singleEquiv D i)]
    simp only [mulVec, dotProduct, hTM, Equiv.symm_apply_apply]
    rw [← (singleEquiv D).symm.sum_comp]
    refine Finset.sum_congr rfl fun d _ => ?_
    rw [← hout]
    rfl

/-- The array `x` holds on plate `p` the draw that the standard normal vector `z` gives: with a factor `Tᵀ T = -2 φ₁` of the
precision and the mean `m`, `T (x - m) = z`. -/
def DrawOn (s p : List Nat) (phi0 phi1 x : Arr ℝ) (z : MultiIndex s → ℝ) : Prop :=
  ∃ T : Matrix (MultiIndex s) (MultiIndex s) ℝ, Tᵀ * T = (-2 : ℝ) • matrixOf phi1 p s s ∧
    T *ᵥ (vectorOf x p s - gaussMean (vectorOf phi0 p s) (matrixOf phi1 p s s)) = z

theorem draw_core {z : Arr ℝ} {D : Nat} (h0 : phi0.shape = P0 ++ [D]) (h1 : phi1.shape = P1 ++ [D, D]) (hz : z.shape = P ++ [D])
    (hpd : ∀ p ∈ indices P1, ((-2 : ℝ) • matrixOf phi1 p [D] [D]).PosDef) (hQ : IsBroadcast [P1, P0] Q) (hQP : BroadcastsTo Q P)
    (hsub : (∀ k, axisLen P1 k = 1 ∨ (k < P0.length ∧ axisLen P1 k = axisLen P0 k)) ∧ P1.length ≤ P0.length + 1) :
    ∃ U mu y x, cholAxes (npScaleBy (-2) phi1) 1 = .ok U ∧ cholSolveAxes U phi0 1 = .ok mu ∧ solveTriAxes U z 1 = .ok y ∧
      npAdd mu y = .ok x ∧ x.shape = P ++ [D] ∧ ∀ p ∈ indices P, DrawOn [D] p phi0 phi1 x (vectorOf z p [D]) := by
  have b1 : BroadcastsTo P1 Q := IsBroadcast.to hQ (by simp)
  have b0 : BroadcastsTo P0 Q := IsBroadcast.to hQ (by simp)
  obtain ⟨U, c1, cU⟩ := C76_chol (npScaleBy (-2) phi1) P1 [D] (by show phi1.shape = _; simpa using h1) fun p hp => by
    rw [matrixOf_neg_two]; exact hpd p hp
  obtain ⟨mu, c2, c3, c4⟩ := solve_any cU h0 hQ fun _ => hsub
  obtain ⟨y, c5, c6, c7⟩ := solveTri_ok cU hz (BroadcastsTo.trans' b1 hQP)
  obtain ⟨x, c8, ⟨S, c9, hS⟩, c10⟩ := po_add (X := mu) (Y := y) (P := P) (s := [D]) ⟨Q, c3, hQP⟩ ⟨P, c6, BroadcastsTo_refl P⟩
  refine ⟨U, mu, y, x, c1, c2, c5, c8, ?_, fun p hp => ?_⟩
  · obtain ⟨x', e1, e2, _⟩ := npAdd_common (X := mu) (Y := y) (B := P ++ [D])
      (PlatesDims.broadcastsTo ⟨Q, c3, hQP⟩) (PlatesDims.broadcastsTo ⟨P, c6, BroadcastsTo_refl P⟩)
    obtain rfl := Except.ok.inj (e1.symm.trans c8)
    have h4 : BroadcastsTo (P ++ [D]) x'.shape := by
      have := IsBroadcast.to e2 (s := y.shape) (by simp)
      rwa [c6] at this
    have h6 : BroadcastsTo x'.shape (P ++ [D]) := PlatesDims.broadcastsTo ⟨S, c9, hS⟩
    exact axisLen_ext (le_antisymm h6.1 h4.1) fun k => by have := h4.2 k; have := h6.2 k; omega
  · obtain ⟨q, hq, e⟩ := exists_restrict (BroadcastsTo.trans' b1 hQP).2 hp
    obtain ⟨r, hr, e'⟩ := exists_restrict hQP.2 hp
    have hU : (npScaleBy (-2) phi1).shape = P1 ++ [D] ++ [D] := by show phi1.shape = _; simpa using h1
    refine ⟨upperOf (matrixOf U p [D] [D]), ?_, ?_⟩
    · rw [← matrixOf_neg_two, matrixOf_wider hU (BroadcastsTo_refl P1) e, matrixOf_wider cU.shapeU (BroadcastsTo_refl P1) e]
      exact cU.eq q hq
    · have hm : gaussMean (vectorOf phi0 p [D]) (matrixOf phi1 p [D] [D]) = vectorOf mu p [D] := by
        unfold gaussMean
        rw [← matrixOf_neg_two, vectorOf_wider (X := mu) c3 (BroadcastsTo_refl Q) e', vectorOf_wider (X := phi0) h0 b0 e',
          ← c4 r hr, ← matrixOf_wider hU b1 e', mulVec_mulVec, nonsing_inv_mul, one_mulVec]
        rw [matrixOf_wider hU (BroadcastsTo_refl P1) e, matrixOf_neg_two]
        exact (hpd q hq).det_pos.ne'.isUnit
      rw [hm, ← c7 p hp]
      congr 1
      funext i
      show x.at _ - mu.at _ = y.at _
      rw [c10]; ring

/-- **C80** A draw of `Gaussian` over one axis: `x = mean + U⁻¹ z` on every plate, with the Cholesky factor of the precision. -/
theorem C80_random_partial {z : Arr ℝ} {D : Nat} (h0 : phi0.shape = P0 ++ [D]) (h1 : phi1.shape = P1 ++ [D, D])
    (hz : z.shape = P ++ [D]) (hpd : ∀ p ∈ indices P1, ((-2 : ℝ) • matrixOf phi1 p [D] [D]).PosDef)
    (hQ : IsBroadcast [P1, P0] Q) (hQP : BroadcastsTo Q P)
    (hsub : (∀ k, axisLen P1 k = 1 ∨ (k < P0.length ∧ axisLen P1 k = axisLen P0 k)) ∧ P1.length ≤ P0.length + 1) :
    ∃ x, gaussianRandomArr [D] phi0 phi1 z = .ok x ∧ x.shape = P ++ [D] ∧
      ∀ p ∈ indices P, DrawOn [D] p phi0 phi1 x (vectorOf z p [D]) := by
  obtain ⟨U, mu, y, x, c1, c2, c3, c4, c5, c6⟩ := draw_core h0 h1 hz hpd hQ hQP hsub
  refine ⟨x, ?_, c5, c6⟩
  unfold gaussianRandomArr
  simp only [List.length_singleton, c1, c2, c3, c4, bind, Except.bind]

/-- **C80 fails for draws of `Gaussian` over two axes or more**: the triangular solver is not implemented. -/
theorem C80_random_refuted {z : Arr ℝ} (h0 : phi0.shape = P0 ++ s) (h1 : phi1.shape = P1 ++ s ++ s)
    (hpd : ∀ p ∈ indices P1, ((-2 : ℝ) • matrixOf phi1 p s s).PosDef) (hQ : IsBroadcast [P1, P0] Q)
    (hsub : s ≠ [] → (∀ k, axisLen P1 k = 1 ∨ (k < P0.length ∧ axisLen P1 k = axisLen P0 k)) ∧ P1.length ≤ P0.length + 1)
    (hs : s.length ≠ 1) : gaussianRandomArr s phi0 phi1 z = .error .notImplemented := by
  obtain ⟨L, Cov, mu, _, _, _, _, _, c1, _, c3, _⟩ := gaussian_moments_core h0 h1 hpd hQ hsub
  unfold gaussianRandomArr
  have e : solveTriAxes L z s.length = .error .notImplemented := by unfold solveTriAxes; rw [if_pos hs]
  simp only [c1, c3, e, bind, Except.bind]

/-- **C80** A draw of `GaussianARD` over any axes, for variables with more than one element. -/
theorem C80_ard_random {z : Arr ℝ} (h0 : phi0.shape = P0 ++ s) (h1 : phi1.shape = P1 ++ s ++ s)
    (hz : z.shape = P ++ [s.prod]) (hpd : ∀ p ∈ indices P1, ((-2 : ℝ) • matrixOf phi1 p s s).PosDef)
    (hQ : IsBroadcast [P1, P0] Q) (hQP : BroadcastsTo Q P)
    (hsub : (∀ k, axisLen P1 k = 1 ∨ (k < P0.length ∧ axisLen P1 k = axisLen P0 k)) ∧ P1.length ≤ P0.length + 1) :
    ∃ x, ardRandomArr s P phi0 phi1 z = .ok x ∧ x.shape = P ++ s ∧
      ∀ p ∈ indices P, DrawOn s p phi0 phi1 x (vectorOf z p [s.prod] ∘ (flatIx s).symm) := by
  have b1 : BroadcastsTo P1 P := BroadcastsTo.trans' (IsBroadcast.to hQ (by simp)) hQP
  have b0 : BroadcastsTo P0 P := BroadcastsTo.trans' (IsBroadcast.to hQ (by simp)) hQP
  obtain ⟨f0, r1, r2, r3⟩ := flatten_vec (s := s) (S := P0) h0 b0
  obtain ⟨f1, r4, r5, r6⟩ := flatten_mat (s := s) (S := P1) (by simpa using h1) b1
  obtain ⟨f1', r4', _, r6'⟩ := flatten_mat (X := phi1) (s := s) (S := P1) (Q := P1) (by simpa using h1) (BroadcastsTo_refl P1)
  obtain rfl : f1' = f1 := Except.ok.inj (r4'.symm.trans r4)
  obtain ⟨U, mu, y, x, c1, c2, c3, c4, c5, c6⟩ := draw_core r2 r5 hz (fun p hp => by
    rw [r6' p hp]
    exact (hpd p hp).submatrix (flatIx s).injective) hQ hQP hsub
  obtain ⟨v, q1, q2, q3⟩ := unflatten_vec (s := s) c5 (BroadcastsTo_refl P)
  refine ⟨v, ?_, q2, fun p hp => ?_⟩
  · unfold ardRandomArr
    have t0 : phi0.shape.take (phi0.shape.length - s.length) = P0 := by rw [h0]; simp
    have t1 : phi1.shape.take (phi1.shape.length - 2 * s.length) = P1 := by
      rw [h1, List.append_assoc, List.take_append_of_le_length (by simp; omega)]
      simp; omega
    simp only [t0, t1, r1, r4, c1, c2, c3, c4, q1, bind, Except.bind]
  · obtain ⟨T, e1, e2⟩ := c6 p hp
    rw [r6 p hp] at e1
    rw [r3 p hp, r6 p hp, q3 p hp] at e2
    have em : gaussMean (vectorOf phi0 p s ∘ flatIx s) ((matrixOf phi1 p s s).submatrix (flatIx s) (flatIx s))
        = gaussMean (vectorOf phi0 p s) (matrixOf phi1 p s s) ∘ flatIx s := by
      unfold gaussMean
      have e3 : ((-2 : ℝ) • (matrixOf phi1 p s s).submatrix (flatIx s) (flatIx s))
          = ((-2 : ℝ) • matrixOf phi1 p s s).submatrix (flatIx s) (flatIx s) := rfl
      rw [e3, inv_submatrix_equiv, submatrix_mulVec_equiv, Function.comp_assoc, Equiv.self_comp_symm, Function.comp_id]
    rw [em] at e2
    refine ⟨T.submatrix (flatIx s).symm (flatIx s).symm, ?_, ?_⟩
    · rw [transpose_submatrix, submatrix_mul_equiv, e1]
      ext i j
      simp
    · rw [submatrix_mulVec_equiv, Equiv.symm_symm, ← e2]
      rfl

theorem eq_replicate_of_prod_one {s : List Nat} (h : s.prod = 1) : s = List.replicate s.length 1 := by
  rw [List.eq_replicate_iff]
  refine ⟨rfl, fun a ha => ?_⟩
  exact Nat.dvd_one.1 (h ▸ List.dvd_prod ha)

theorem rowMajor_one {s : List Nat} (h : s.prod = 1) {i : List Nat} (hi : i ∈ indices s) : rowMajor s i = 0 := by
  have := rowMajor_lt hi
  omega

/-- **C80** A draw of `GaussianARD` for variables with one element. -/
theorem C80_ard_random_one {z : Arr ℝ} (h0 : PlatesDims phi0.shape P s) (h1 : phi1.shape = P1 ++ s ++ s) (hz : z.shape = P ++ s)
    (hs : s.prod = 1) (hP : BroadcastsTo P1 P) (hpd : ∀ p ∈ indices P1, ((-2 : ℝ) • matrixOf phi1 p s s).PosDef) :
    ∃ x, ardRandomOne s phi0 phi1 z = .ok x ∧ PlatesDims x.shape P s ∧
      ∀ p ∈ indices P, DrawOn s p phi0 phi1 x (vectorOf z p s) := by
  have hm : ∃ Y, ardOneMatrix s.length phi1 = .ok Y ∧ Y.shape = P1 ++ s ∧
      ∀ q ∈ indices P1, ∀ i j l : MultiIndex s, Y.at (coord (q ++ l.1)) = matrixOf phi1 q s s i j := by
    unfold ardOneMatrix
    rcases eq_or_ne s [] with rfl | hne
    · refine ⟨phi1, by simp, by simpa using h1, fun q _ i j l => ?_⟩
      simp [matrixOf, mem_indices_nil.1 (multi_mem i), mem_indices_nil.1 (multi_mem j), mem_indices_nil.1 (multi_mem l)]
    · obtain ⟨Y, y1, y2, y3⟩ := reshape_plates (X := phi1) (S := P1) (s := s ++ s) (t := s) (by simpa using h1) (by simp [hs])
      refine ⟨Y, ?_, y2, fun q hq i j l => ?_⟩
      · have t1 : phi1.shape.take (phi1.shape.length - 2 * s.length) = P1 := by
          rw [h1, List.append_assoc, List.take_append_of_le_length (by simp; omega)]
          simp; omega
        rw [if_pos (List.length_pos_iff.2 hne), t1, ← eq_replicate_of_prod_one hs, y1]
      · rw [y3 q hq _ (pair_mem i j) _ (multi_mem l) (by
          rw [rowMajor_one hs (multi_mem l), rowMajor_one (by simp [hs]) (pair_mem i j)])]
        simp [matrixOf]
  obtain ⟨Y, y1, y2, y3⟩ := hm
  have pY : PlatesDims Y.shape P s := ⟨P1, y2, hP⟩
  obtain ⟨mu, m1, m2, m3⟩ := po_mul (X := ⟨Y.shape, fun c => -0.5 / Y.get c⟩) (Y := phi0) pY h0
  obtain ⟨sz, a1, a2, a3⟩ := po_mul (X := ⟨Y.shape, fun c => √(-0.5 / Y.get c)⟩) (Y := z) pY ⟨P, hz, BroadcastsTo_refl P⟩
  obtain ⟨x, b1, b2, b3⟩ := po_add m2 a2
  refine ⟨x, ?_, b2, fun p hp => ?_⟩
  · unfold ardRandomOne
    simp only [y1, m1, a1, b1, bind, Except.bind]
  · obtain ⟨q, hq, e⟩ := exists_restrict hP.2 hp
    have e1 : (⟨Y.shape, fun c => -0.5 / Y.get c⟩ : Arr ℝ).at = fun c => -0.5 / Y.at c := rfl
    have e2 : (⟨Y.shape, fun c => √(-0.5 / Y.get c)⟩ : Arr ℝ).at = fun c => √(-0.5 / Y.at c) := rfl
    have hsub : Subsingleton (MultiIndex s) := ⟨fun i j => Subtype.ext (rowMajor_inj (multi_mem i) (multi_mem j) (by
      rw [rowMajor_one hs (multi_mem i), rowMajor_one hs (multi_mem j)]))⟩
    have hne : Nonempty (MultiIndex s) := by
      obtain ⟨i, hi, _⟩ := rowMajor_surj (s := s) (n := 0) (by omega)
      exact ⟨⟨i, List.mem_toFinset.2 hi⟩⟩
    let i0 : MultiIndex s := hne.some
    have hu : Unique (MultiIndex s) := ⟨⟨i0⟩, fun i => Subsingleton.elim _ _⟩
    set a := matrixOf phi1 p s s i0 i0 with ha
    have haY : ∀ i : MultiIndex s, Y.at (coord (p ++ i.1)) = a := fun i => by
      have := congrFun (vectorOf_wider (X := Y) y2 (BroadcastsTo_refl P1) e) i
      rw [ha, matrixOf_wider h1 (BroadcastsTo_refl P1) e, ← y3 q hq i0 i0 i]
      exact this
    have hneg : a < 0 := by
      have := (hpd q hq).diag_pos (i := i0)
      rw [← matrixOf_wider h1 (BroadcastsTo_refl P1) e] at this
      simp only [Matrix.smul_apply, smul_eq_mul] at this
      linarith
    have hM : ∀ i j, matrixOf phi1 p s s i j = a := fun i j => by
      rw [Subsingleton.elim i i0, Subsingleton.elim j i0]
    have hT : √(-2 * a) * √(-2 * a) = -2 * a := Real.mul_self_sqrt (by linarith)
    have hsz : √(-2 * a) * √(-0.5 / a) = 1 := by
      rw [← Real.sqrt_mul (by linarith)]
      have : -2 * a * (-0.5 / a) = 1 := by
        rw [mul_div_assoc', div_eq_one_iff_eq hneg.ne]; ring
      rw [this, Real.sqrt_one]
    refine ⟨of fun _ _ => √(-2 * a), ?_, ?_⟩
    · ext i j
      simp only [mul_apply, transpose_apply, of_apply, Fintype.sum_unique, Matrix.smul_apply, smul_eq_mul, hM, hT]
    · have hmean : gaussMean (vectorOf phi0 p s) (matrixOf phi1 p s s) = fun i => -0.5 / a * vectorOf phi0 p s i := by
        have hd : IsUnit ((-2 : ℝ) • matrixOf phi1 p s s).det := by
          rw [det_unique, Matrix.smul_apply, hM, smul_eq_mul]
          exact (mul_ne_zero (by norm_num) hneg.ne).isUnit
        have hk : ((-2 : ℝ) • matrixOf phi1 p s s) *ᵥ (fun i => -0.5 / a * vectorOf phi0 p s i) = vectorOf phi0 p s := by
          funext i
          simp only [mulVec, dotProduct, Fintype.sum_unique, Matrix.smul_apply, hM, smul_eq_mul]
          have h2 : -2 * a * (-0.5 / a) = 1 := by
            rw [mul_div_assoc', div_eq_one_iff_eq hneg.ne]; ring
          rw [Subsingleton.elim i default, ← mul_assoc, h2, one_mul]
        unfold gaussMean
        conv_lhs => rw [← hk]
        rw [mulVec_mulVec, nonsing_inv_mul _ hd, one_mulVec]
      rw [hmean]
      funext i
      simp only [mulVec, dotProduct, Fintype.sum_unique, of_apply, Pi.sub_apply, vectorOf, b3, m3, a3, e1, e2, haY]
      rw [Subsingleton.elim i default, add_sub_cancel_left, ← mul_assoc, hsz, one_mul]

end

/-! ## Examples -/

/-- natural parameters of a 2 × 2 variable on three plates, with precision `(2 + p)` times the identity on plate `p` -/
noncomputable def demoPhi1 : Arr ℝ := npScaleBy (-0.5) demoA

def demoPhi0 : Arr ℝ := ⟨[3, 2, 2], fun c => 1 + c 0 + 2 * c 1⟩

theorem demoPhi1_matrix {p : List Nat} (hp : p ∈ indices [3]) :
    (-2 : ℝ) • matrixOf demoPhi1 p [2, 2] [2, 2] = (2 + (p.headD 0 : ℕ) : ℝ) • 1 := by
  rw [demoPhi1, matrixOf_scaleBy, smul_smul, ← demoA_matrix hp]
  norm_num

theorem demoPhi1_posDef : ∀ p ∈ indices [3], ((-2 : ℝ) • matrixOf demoPhi1 p [2, 2] [2, 2]).PosDef := fun p hp => by
  rw [demoPhi1_matrix hp]
  exact PosDef.one.smul (by positivity)

theorem demo_sub : (∀ k, axisLen [3] k = 1 ∨ (k < [3].length ∧ axisLen [3] k = axisLen [3] k)) ∧ [3].length ≤ [3].length + 1 :=
  ⟨fun k => by
    rcases k with _ | k
    · exact .inr ⟨by simp, rfl⟩
    · exact .inl (by simp [axisLen]), by simp⟩

/-- the mean on plate 1 is a third of `φ₀`, for both classes -/
example : ∃ u0 u1 g, ardMomentsArr [2, 2] demoPhi0 demoPhi1 = .ok (u0, u1, g) ∧
    (3 : ℝ) • vectorOf u0 [1] [2, 2] = vectorOf demoPhi0 [1] [2, 2] := by
  obtain ⟨u0, u1, g, h1, _, _, _, h2⟩ := C80_ard_moments (P0 := [3]) (P1 := [3]) (Q := [3]) (s := [2, 2]) (phi0 := demoPhi0)
    (phi1 := demoPhi1) rfl rfl demoPhi1_posDef (isBroadcast_self [3]) fun _ => demo_sub
  have hp : [1] ∈ indices [3] := by decide
  refine ⟨u0, u1, g, h1, ?_⟩
  have := (h2 [1] hp).mean
  rw [demoPhi1_matrix hp, smul_mulVec, one_mulVec] at this
  rw [← this]
  congr 1
  norm_num

example : ∃ u0 u1 g, gaussianMomentsArr [2, 2] demoPhi0 demoPhi1 = .ok (u0, u1, g) ∧
    (3 : ℝ) • vectorOf u0 [1] [2, 2] = vectorOf demoPhi0 [1] [2, 2] := by
  obtain ⟨u0, u1, g, h1, _, _, _, h2⟩ := C80_moments_partial (P0 := [3]) (P1 := [3]) (Q := [3]) (s := [2, 2]) (phi0 := demoPhi0)
    (phi1 := demoPhi1) rfl rfl (by simp [demoPhi0]) demoPhi1_posDef (isBroadcast_self [3]) fun _ => demo_sub
  have hp : [1] ∈ indices [3] := by decide
  refine ⟨u0, u1, g, h1, ?_⟩
  have := (h2 [1] hp).mean
  rw [demoPhi1_matrix hp, smul_mulVec, one_mulVec] at this
  rw [← this]
  congr 1
  norm_num

/-- a draw for these parameters, and the same fails for `Gaussian` -/
example : ∃ x, ardRandomArr [2, 2] [5, 3] demoPhi0 demoPhi1 ⟨[5, 3, 4], fun c => c 0⟩ = .ok x ∧ x.shape = [5, 3, 2, 2] := by
  obtain ⟨x, h1, h2, _⟩ := C80_ard_random (P0 := [3]) (P1 := [3]) (Q := [3]) (P := [5, 3]) (s := [2, 2]) (phi0 := demoPhi0)
    (phi1 := demoPhi1) (z := ⟨[5, 3, 4], fun c => c 0⟩) rfl rfl rfl demoPhi1_posDef (isBroadcast_self [3])
    ⟨by simp, fun k => by
      rcases k with _ | k
      · exact .inr rfl
      · exact .inl (by simp [axisLen])⟩ demo_sub
  exact ⟨x, h1, h2⟩

example (z : Arr ℝ) : gaussianRandomArr [2, 2] demoPhi0 demoPhi1 z = .error .notImplemented :=
  C80_random_refuted (P0 := [3]) (P1 := [3]) (Q := [3]) rfl rfl demoPhi1_posDef (isBroadcast_self [3]) (fun _ => demo_sub) (by simp)

/-- parents with fewer axes than the variable: one mean for a row, one precision for all -/
example : ∃ f0 f1, ardPhiArr [2, 3] ⟨[3], fun c => c 0⟩ ⟨[], fun _ => 4⟩ = .ok (f0, f1) ∧
    vectorOf f0 [1] [2, 3] ⟨[1, 2], by decide⟩ = 2 ∧
    (-2 : ℝ) * matrixOf f1 [1] [2, 3] [2, 3] ⟨[1, 2], by decide⟩ ⟨[1, 2], by decide⟩ = 4 := by
  obtain ⟨f0, f1, h1, _, _, h2⟩ := C80_ard_phi (P := [2]) (s := [2, 3]) (u0 := ⟨[3], fun c => c 0⟩) (u2 := ⟨[], fun _ => 4⟩)
    ⟨by simp, fun k => by rcases k with _ | k <;> simp [axisLen]⟩ ⟨by simp, fun k => by simp [axisLen]⟩
  obtain ⟨h3, h4⟩ := h2 [1] (by decide)
  refine ⟨f0, f1, h1, ?_, ?_⟩
  · rw [h3]; norm_num [vectorOf, Arr.at, restrict, axisLen, coord]
  · have := congrFun (congrFun h4 ⟨[1, 2], by decide⟩) ⟨[1, 2], by decide⟩
    rw [Matrix.smul_apply, diagonal_apply_eq] at this
    rw [← smul_eq_mul, this]
    rfl

/-- the cumulant function adds a single precision up over all six elements -/
example : ∃ g, ardCgfArr [2, 3] ⟨[], fun _ => 2⟩ ⟨[], fun _ => 4⟩ = .ok g ∧ g.at (coord []) = 6 := by
  obtain ⟨g, h1, _, h2⟩ := C80_ard_cgf (P := []) (s := [2, 3]) (u1 := ⟨[], fun _ => 2⟩) (u3 := ⟨[], fun _ => 4⟩)
    ⟨by simp, fun k => by simp [axisLen]⟩ ⟨by simp, fun k => by simp [axisLen]⟩
  refine ⟨g, h1, ?_⟩
  rw [h2 [] (by decide)]
  have e : ∀ i : MultiIndex [2, 3], (-(1 / 2) * vectorOf (⟨[], fun _ => 2⟩ : Arr ℝ) [] [2, 3] i
      + 1 / 2 * vectorOf (⟨[], fun _ => 4⟩ : Arr ℝ) [] [2, 3] i) = 1 := fun i => by
    show -(1 / 2) * 2 + 1 / 2 * 4 = (1 : ℝ)
    norm_num
  rw [Finset.sum_congr rfl fun i _ => e i]
  have : Fintype.card (MultiIndex [2, 3]) = 6 := by decide
  rw [Finset.sum_const, Finset.card_univ, this]
  norm_num

example : ∃ m0 m1 m2 m3, ardMessageArr [2, 2] 0 demoPhi0 demoA = .ok (m0, m1, m2, m3) := by
  obtain ⟨m0, m1, m2, m3, h, _⟩ := C80_ard_message (P := [3]) (s := [2, 2]) (u0 := demoPhi0) (u1 := demoA)
    ⟨[3], rfl, BroadcastsTo_refl [3]⟩
  exact ⟨m0, m1, m2, m3, h⟩

example : ∃ u1, ardFixedArr [2, 2] demoPhi0 = .ok ((demoPhi0, u1), -((4 : ℕ) : ℝ) / 2 * Real.log (2 * Real.pi)) := by
  obtain ⟨u1, h, _⟩ := C80_ard_fixed (P := [3]) (s := [2, 2]) (x := demoPhi0) rfl
  exact ⟨u1, h⟩

/-- the constant of `Gaussian` counts two of the four elements -/
example : ∃ u1, gaussianFixedArr [2, 2] demoPhi0 = .ok ((demoPhi0, u1), -((2 : ℕ) : ℝ) / 2 * Real.log (2 * Real.pi)) := by
  obtain ⟨y, y1, _⟩ := po_outer (A := demoPhi0) (B := demoPhi0) (P := [3]) (s := [2, 2]) (t := [2, 2]) ⟨[3], rfl, BroadcastsTo_refl _⟩
    ⟨[3], rfl, BroadcastsTo_refl _⟩ rfl
  refine ⟨y, ?_⟩
  unfold gaussianFixedArr
  rw [if_neg (by simp [demoPhi0])]
  simp only [y1, bind, Except.bind, pure, Except.pure]
  rfl

/-- the gradient of a vector of two elements on one plate -/
example : ∃ d0 d1, gaussianGradientArr 1 ⟨[2], fun c => c 0⟩ ⟨[2, 2], fun _ => 1⟩ ⟨[3, 2], fun _ => 1⟩ ⟨[2, 2], fun c => 1 + c 0 * c 1⟩
    = .ok (d0, d1) ∧ PlatesDims d0.shape [3] [2] := by
  have b : BroadcastsTo [] [3] := ⟨by simp, fun k => .inl (by simp [axisLen])⟩
  obtain ⟨d0, d1, h1, h2, _⟩ := C80_gradient_partial (P := [3]) (s := [2]) (phi0 := demoPhi0) (phi1 := demoPhi1) (c := demoPhi0)
    (g0' := ⟨[2], fun c => c 0⟩) (g1' := ⟨[2, 2], fun _ => 1⟩) (x := ⟨[3, 2], fun _ => 1⟩) (xx := ⟨[2, 2], fun c => 1 + c 0 * c 1⟩)
    (by simp) ⟨[], rfl, b⟩ ⟨[], rfl, b⟩ ⟨[3], rfl, BroadcastsTo_refl _⟩ ⟨[], rfl, b⟩
  exact ⟨d0, d1, h1, h2⟩

example : gaussianGradientArr 2 demoPhi0 demoPhi1 demoPhi0 demoA = .error .exception :=
  C80_gradient_refuted (P := [3]) (s := [2, 2]) (by simp) ⟨[3], rfl, BroadcastsTo_refl _⟩ ⟨[3], rfl, BroadcastsTo_refl _⟩
    ⟨[3], rfl, BroadcastsTo_refl _⟩ ⟨[3], rfl, BroadcastsTo_refl _⟩

end Verif
