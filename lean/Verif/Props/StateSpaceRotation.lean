import Verif.Model.StateSpaceRotation
import Verif.Props.StateSpace
import Verif.Props.TransformChainGradient
import Verif.Props.RotateChain

/-! # The rotation of the linear state-space model (C68) -/

namespace Verif
open Matrix Spec Topology

section
variable (P : SSParams)

theorem ss_contribution_a (s : (ssNet P).State) (d : Fin P.D) :
    (ssNet P).contribution SS.a s d
      = ardTerm (ι := Fin P.D ⊕ Fin P.K) (ssSlot P .a () s.u d) ⟨s.u SS.a d, s.phi SS.a d, s.g SS.a d⟩ := by
  refine (Net.contribution_eq (G := ssNet P) SS.a s d).trans ?_
  change _ + -(1 / 1) * _ = _ - _
  rw [div_one, neg_one_mul, ← sub_eq_add_neg]
  rfl

theorem ss_contribution_c (s : (ssNet P).State) (i : Fin P.J) :
    (ssNet P).contribution SS.c s i
      = ardTerm (ι := Fin P.D) (ssSlot P .c () s.u i) ⟨s.u SS.c i, s.phi SS.c i, s.g SS.c i⟩ := by
  refine (Net.contribution_eq (G := ssNet P) SS.c s i).trans ?_
  change _ + -(1 / 1) * _ = _ - _
  rw [div_one, neg_one_mul, ← sub_eq_add_neg]
  rfl

theorem ss_contribution_x (s : (ssNet P).State) (h : DynSymm (M := P.M) (unitDyn fun _ d => s.u SS.a d)) :
    (ssNet P).contribution SS.x s ()
      = chainTerm (ssInitial P) (unitDyn fun _ d => s.u SS.a d) (inpFixed P.z) ⟨s.u SS.x (), s.phi SS.x (), s.g SS.x ()⟩ := by
  refine (Net.contribution_eq (G := ssNet P) SS.x s ()).trans ?_
  change _ + -(1 / 1) * _ = _ - _
  rw [div_one, neg_one_mul, ← sub_eq_add_neg]
  change gmcPhi (ssInitial P) (dynSym (unitDyn fun (_ : Fin P.M) (d : Fin P.D) => s.u SS.a d)) (inpFixed P.z) ⬝ᵥ s.u SS.x ()
    + gmcCgfP (ssInitial P) (dynSym (unitDyn fun (_ : Fin P.M) (d : Fin P.D) => s.u SS.a d)) (inpFixed P.z) - _ = _
  rw [dynSym_eq P.M P.D (Fin P.K) _ h]
  rfl

theorem ss_contribution_alpha (s : (ssNet P).State) (j : Fin P.D ⊕ Fin P.K) (h1 : s.u SS.alpha j = gammaMoments (s.phi SS.alpha j))
    (h2 : s.g SS.alpha j = gammaCgf (s.phi SS.alpha j)) :
    (ssNet P).contribution SS.alpha s j
      = gammaTerm (gammaPriorFixed (P.aA j)) (gammaFixed (P.bA j)) (s.phi SS.alpha j) := by
  refine (Net.contribution_eq (G := ssNet P) SS.alpha s j).trans ?_
  change _ + -(1 / 1) * _ = _ - _
  rw [div_one, neg_one_mul, ← sub_eq_add_neg, h1, h2]
  rfl

theorem ss_contribution_gamma (s : (ssNet P).State) (d : Fin P.D) (h1 : s.u SS.gamma d = gammaMoments (s.phi SS.gamma d))
    (h2 : s.g SS.gamma d = gammaCgf (s.phi SS.gamma d)) :
    (ssNet P).contribution SS.gamma s d
      = gammaTerm (gammaPriorFixed (P.aC d)) (gammaFixed (P.bC d)) (s.phi SS.gamma d) := by
  refine (Net.contribution_eq (G := ssNet P) SS.gamma s d).trans ?_
  change _ + -(1 / 1) * _ = _ - _
  rw [div_one, neg_one_mul, ← sub_eq_add_neg, h1, h2]
  rfl

/-- there are states, transitions and rows, and every row has an observed value -/
def Spec.SSObserved : Prop := 0 < P.D ∧ 0 < P.M ∧ 0 < P.J ∧ ∀ i, ∃ j, P.mask i j = true

theorem ss_bound (hO : SSObserved P) (s : (ssNet P).State) :
    (ssNet P).bound s = ∑ j : Fin P.D ⊕ Fin P.K, (ssNet P).contribution SS.alpha s j + ∑ d : Fin P.D, (ssNet P).contribution SS.a s d
      + (ssNet P).contribution SS.x s () + ∑ d : Fin P.D, (ssNet P).contribution SS.gamma s d
      + ∑ i : Fin P.J, (ssNet P).contribution SS.c s i + (ssNet P).contribution SS.tau s ()
      + ∑ p : Fin P.J × Fin (P.M + 1), if P.mask p.1 p.2 = true then (ssNet P).contribution SS.y s p else 0 := by
  obtain ⟨hD, hM, hJ, hm⟩ := hO
  have hany : ∃ i j, P.mask i j = true := ⟨⟨0, hJ⟩, hm _⟩
  refine (ss_sum (fun n => ∑ q : ssPlate P n, if (ssNet P).mask n q then (ssNet P).contribution n s q else 0)).trans ?_
  refine congrArg₂ (· + ·) (congrArg₂ (· + ·) (congrArg₂ (· + ·) (congrArg₂ (· + ·) (congrArg₂ (· + ·) (congrArg₂ (· + ·) ?_ ?_) ?_) ?_) ?_) ?_) rfl
  · exact Finset.sum_congr rfl fun d _ => if_pos (decide_eq_true ⟨hD, hM, hany⟩)
  · exact Finset.sum_congr rfl fun d _ => if_pos (decide_eq_true ⟨hM, hany⟩)
  · exact (Fintype.sum_unique (ι := Unit) _).trans (if_pos (decide_eq_true hany))
  · exact Finset.sum_congr rfl fun d _ => if_pos (decide_eq_true hany)
  · exact Finset.sum_congr rfl fun i _ => if_pos (decide_eq_true (hm i))
  · exact (Fintype.sum_unique (ι := Unit) _).trans (if_pos (decide_eq_true hany))

/-- the rows of the dynamics -/
def ssRows (s : (ssNet P).State) : Unit → Fin P.D → ExpState (GIx (Fin P.D ⊕ Fin P.K)) :=
  fun _ d => { u := s.u SS.a d, phi := s.phi SS.a d, g := s.g SS.a d }

theorem ss_rotate_x (R : Matrix (Fin P.D) (Fin P.D) ℝ) (s : (ssNet P).State) :
    (⟨(ssRotate P R s).u SS.x (), (ssRotate P R s).phi SS.x (), (ssRotate P R s).g SS.x ()⟩ : ExpState (GMCIx P.M P.D))
      = gmcRotate R (some R⁻¹) (some (slogdet R)) ⟨s.u SS.x (), s.phi SS.x (), s.g SS.x ()⟩ := rfl

theorem ss_rotate_a (R : Matrix (Fin P.D) (Fin P.D) ℝ) (s : (ssNet P).State) (d : Fin P.D) :
    (⟨(ssRotate P R s).u SS.a d, (ssRotate P R s).phi SS.a d, (ssRotate P R s).g SS.a d⟩ : ExpState (GIx (Fin P.D ⊕ Fin P.K)))
      = chainRotateA R R⁻¹ (slogdet R) (ssRows P s) ((), d) := rfl

theorem ss_rotate_c {R : Matrix (Fin P.D) (Fin P.D) ℝ} (hR : R.det ≠ 0) (s : (ssNet P).State) (i : Fin P.J) :
    (⟨(ssRotate P R s).u SS.c i, (ssRotate P R s).phi SS.c i, (ssRotate P R s).g SS.c i⟩ : ExpState (GIx (Fin P.D)))
      = gaussianRotate R⁻¹ᵀ none none ⟨s.u SS.c i, s.phi SS.c i, s.g SS.c i⟩ := by
  rw [← gaussianRotate_opposite hR]
  rfl

/-- the new parameters of `gamma` -/
theorem ss_rotate_gamma (hO : SSObserved P) {R : Matrix (Fin P.D) (Fin P.D) ℝ} (hR : R.det ≠ 0) (s : (ssNet P).State) (d : Fin P.D) :
    (ssRotate P R s).phi SS.gamma d
      = alphaPhi (P := Fin P.J) (A := Unit) (ι := Fin P.D) (K := Fin P.D) (fun _ => ()) id (fun _ => P.aC) (fun _ => P.bC)
          (fun i d => fixed0 (P.muC i d))
          (fun i => (gaussianRotate R⁻¹ᵀ none none ⟨s.u SS.c i, s.phi SS.c i, s.g SS.c i⟩ : ExpState (GIx (Fin P.D))).u) () d := by
  have e := ss_new_gamma P (ssRotateC P R⁻¹ᵀ Rᵀ (-slogdet R) ((ssNet P).update SS.alpha (ssRotateX P R R⁻¹ (slogdet R) s))) d
  refine (show (ssRotate P R s).phi SS.gamma d = _ from e).trans ?_
  unfold alphaPhi
  congr 1
  · simp [gammaPhi, gammaPriorFixed, gammaFixed]
  · rw [Finset.filter_true_of_mem fun _ _ => rfl]
    refine Finset.sum_congr rfl fun i _ => ?_
    refine Eq.trans ?_ (sum_filter_id _ d).symm
    refine congrArg (fun m => wrap0MsgT m (fixed0 (P.muC i d))) ?_
    funext k
    exact (if_pos (decide_eq_true (hO.2.2.2 i))).trans (congrArg (fun t : ExpState (GIx (Fin P.D)) => ardMsg t.u (d, k))
      (gaussianRotate_opposite hR ⟨s.u SS.c i, s.phi SS.c i, s.g SS.c i⟩))

/-- the new parameters of `alpha` -/
theorem ss_rotate_alpha (hO : SSObserved P) {a0 b0 : ℝ} (ha : ∀ j, P.aA j = a0) (hb : ∀ j, P.bA j = b0)
    (R : Matrix (Fin P.D) (Fin P.D) ℝ) (s : (ssNet P).State) (j : Fin P.D ⊕ Fin P.K) :
    (ssRotate P R s).phi SS.alpha j
      = alphaPhi (P := Unit × Fin P.D) (A := Unit × Unit) (ι := Fin P.D ⊕ Fin P.K) (K := Fin P.D ⊕ Fin P.K) (fun _ => ((), ())) id
          (fun _ _ => a0) (fun _ _ => b0) (fun p j => fixed0 (P.muA p.2 j))
          (fun p => (chainRotateA R R⁻¹ (slogdet R) (ssRows P s) p).u) ((), ()) j := by
  have hany : ∃ i j, P.mask i j = true := ⟨⟨0, hO.2.2.1⟩, hO.2.2.2 _⟩
  have e := ss_new_alpha P (ssRotateX P R R⁻¹ (slogdet R) s) j
  refine (show (ssRotate P R s).phi SS.alpha j = _ from e).trans ?_
  unfold alphaPhi
  congr 1
  · simp [gammaPhi, gammaPriorFixed, gammaFixed, ha, hb]
  · rw [Finset.filter_true_of_mem fun _ _ => rfl]
    refine Eq.trans ?_ (Fintype.sum_prod_type _).symm
    refine Eq.trans ?_ (Fintype.sum_unique (ι := Unit) _).symm
    refine Finset.sum_congr rfl fun d _ => ?_
    refine Eq.trans ?_ (sum_filter_id _ j).symm
    refine congrArg (fun m => wrap0MsgT m (fixed0 (P.muA d j))) ?_
    funext k
    exact if_pos (decide_eq_true ⟨hO.2.1, hany⟩)

theorem ss_rotate_slot (R : Matrix (Fin P.D) (Fin P.D) ℝ) (hR : R.det ≠ 0) (s : (ssNet P).State) (p : Fin P.J × Fin (P.M + 1)) :
    dotMoments (ι := Fin P.D) ((ssRotate P R s).u SS.c p.1) (chainToGaussian ((ssRotate P R s).u SS.x ()) p.2)
      = dotMoments (ι := Fin P.D) (s.u SS.c p.1) (chainToGaussian (s.u SS.x ()) p.2) := by
  have h := C46_opposite_rotations R hR ⟨chainToGaussian (s.u SS.x ()) p.2, 0, 0⟩ ⟨s.u SS.c p.1, s.phi SS.c p.1, s.g SS.c p.1⟩
  refine (dotMoments_comm _ _).trans (Eq.trans ?_ (dotMoments_comm (ι := Fin P.D) _ _))
  exact dotMoments_congr h.1 h.2

theorem ss_rotate_tau (R : Matrix (Fin P.D) (Fin P.D) ℝ) (s : (ssNet P).State) :
    (ssNet P).contribution SS.tau (ssRotate P R s) () = (ssNet P).contribution SS.tau s () := rfl

theorem ss_rotate_y (R : Matrix (Fin P.D) (Fin P.D) ℝ) (hR : R.det ≠ 0) (s : (ssNet P).State) (p : Fin P.J × Fin (P.M + 1)) :
    (ssNet P).contribution SS.y (ssRotate P R s) p = (ssNet P).contribution SS.y s p := by
  have e : (ssNet P).parents SS.y (ssRotate P R s).u p = (ssNet P).parents SS.y s.u p := by
    funext k
    exact congrArg (fun m => wrap0 m (s.u SS.tau ())) (ss_rotate_slot P R hR s p)
  unfold Net.contribution
  rw [e]
  rfl

theorem ss_rows_consistent {s : (ssNet P).State} (hs : ∀ n, Consistent (ssNet P) (ssDom P) n s) (d : Fin P.D) :
    StateConsistent gaussianMoments gaussianCgf (ssRows P s () d) ∧ ((-2 : ℝ) • g1 (ssRows P s () d).phi).PosDef := by
  obtain ⟨h, e, eg⟩ := hs SS.a d rfl
  exact ⟨⟨e, eg⟩, h⟩

/-- the rows stay consistent -/
theorem ss_rows_rotate {s : (ssNet P).State} (hs : ∀ n, Consistent (ssNet P) (ssDom P) n s) {R : Matrix (Fin P.D) (Fin P.D) ℝ}
    (hR : R.det ≠ 0) (hQ : ∀ d, colSum R d ≠ 0) (d : Fin P.D) :
    StateConsistent gaussianMoments gaussianCgf (chainRotateA R R⁻¹ (slogdet R) (ssRows P s) ((), d)) ∧
      ((-2 : ℝ) • g1 (chainRotateA R R⁻¹ (slogdet R) (ssRows P s) ((), d)).phi).PosDef := by
  have hW' : (withInputs (κ := Fin P.K) R⁻¹ᵀ).det ≠ 0 := by
    rw [withInputs_det]
    exact (C46_opposite_args R hR).1
  rw [chainRotateA_eq hR]
  exact rotatedRows_consistent (ssRows P s) (fun _ d => (ss_rows_consistent P hs d).1) (fun _ d => (ss_rows_consistent P hs d).2)
    _ hW' R hQ _

theorem ss_combine {A a x G c t y b1 b2 C1 C2 : ℝ} (h1 : x + (a + A) = b1 + C1) (h2 : c + G = b2 + C2) :
    A + a + x + G + c + t + y = - -(b1 + b2) + (C1 + C2 + t + y) := by
  linarith

/-- After the rotation the lower bound is minus the cost plus a constant. -/
theorem ss_rotate_bound (data : Fin P.J → Fin (P.M + 1) → ℝ) (hP : SSValid P) (hO : SSObserved P) (pre : Bool) {a0 b0 : ℝ}
    (ha : ∀ j, P.aA j = a0) (hb : ∀ j, P.bA j = b0) (s : (ssNet P).State) (hs : SSState P data s) :
    ∃ C, ∀ R : Matrix (Fin P.D) (Fin P.D) ℝ, R.det ≠ 0 → (∀ d, colSum R d ≠ 0) →
      (ssNet P).bound (ssRotate P R s) = -ssCost P pre a0 b0 s R + C := by
  obtain ⟨haA, hbA, hL, haC, hbC, -, -⟩ := hP
  have hv : (gw2 (ssInitial P))ᵀ = gw2 (ssInitial P) := by
    have e : gw2 (ssInitial P) = P.Lambda0 := by
      funext i j
      exact one_mul _
    have := hL.isHermitian
    rw [IsHermitian, conjTranspose_eq_transpose_of_trivial] at this
    rw [e, this]
  have ha0 : 0 < a0 := by
    have := haA (.inl ⟨0, hO.1⟩)
    rwa [ha] at this
  have hb0 : 0 < b0 := by
    have := hbA (.inl ⟨0, hO.1⟩)
    rwa [hb] at this
  obtain ⟨C1, h1⟩ := C66_chain_block (P := Unit) (B := Unit) (A₁ := Unit) (A₂ := Unit) (K := Fin P.D ⊕ Fin P.K) (M := P.M)
    (D := P.D) (κ := Fin P.K) (fun _ _ => ()) (fun _ => ssInitial P) (fun _ => hv) (fun _ => inpFixed P.z)
    (fun _ => ⟨s.u SS.x (), s.phi SS.x (), s.g SS.x ()⟩) (ssRows P s) (fun _ d => (ss_rows_consistent P hs.1 d).1)
    (fun _ d => (ss_rows_consistent P hs.1 d).2) pre (fun _ => ()) (fun _ => ()) id (rB := 1) (rL := P.D) (rK := 1)
    (fun a => by simp) (fun k => by simp [Finset.filter_eq']) (fun _ j => s.phi SS.alpha j (1 : Fin 2)) a0 b0 ha0 hb0
    (fun _ d j => fixed0 (P.muA d j)) (fun _ d j => le_of_eq (sq _)) (fun _ j => s.u SS.alpha j)
    (fun _ j => ss_alpha_pos hs.1 j)
  obtain ⟨C2, h2⟩ := C58_ard_update (P := Fin P.J) (A := Unit) (ι := Fin P.D) (K := Fin P.D) (fun _ => ()) id
    (r := P.J) (rK := 1) (by simp) (fun k => by simp [Finset.filter_eq'])
    (fun _ d => s.phi SS.gamma d (1 : Fin 2)) (fun _ => P.aC) (fun _ => P.bC) (fun _ => haC)
    (fun _ => hbC) (fun i d => fixed0 (P.muC i d)) (fun i d => le_of_eq (sq _))
    (fun _ d => s.u SS.gamma d) (fun _ => ss_gamma_pos hs.1) (fun i => ⟨s.u SS.c i, s.phi SS.c i, s.g SS.c i⟩)
    (fun i => ss_second_c hs.1 i)
  refine ⟨C1 + C2 + (ssNet P).contribution SS.tau s ()
    + ∑ p : Fin P.J × Fin (P.M + 1), if P.mask p.1 p.2 = true then (ssNet P).contribution SS.y s p else 0, fun R hR hQ => ?_⟩
  have e1 := h1 R hR hQ
  have e2 := h2 R⁻¹ᵀ (C46_opposite_args R hR).1
  have hy : (∑ p : Fin P.J × Fin (P.M + 1), if P.mask p.1 p.2 = true then (ssNet P).contribution SS.y (ssRotate P R s) p else 0)
      = ∑ p : Fin P.J × Fin (P.M + 1), if P.mask p.1 p.2 = true then (ssNet P).contribution SS.y s p else 0 :=
    Finset.sum_congr rfl fun p _ => by rw [ss_rotate_y P R hR s p]
  rw [ss_bound P hO, ss_rotate_tau, hy]
  have el : slogdet R⁻¹ᵀ = -slogdet R := by
    unfold slogdet
    rw [det_transpose, det_nonsing_inv, Ring.inverse_eq_inv', Real.log_inv]
  have hsym : DynSymm (M := P.M) (unitDyn fun _ d => (ssRotate P R s).u SS.a d) := by
    intro m d i k
    obtain ⟨h1, h2⟩ := ss_rows_rotate P hs.1 hR hQ d
    have h3 := (secondMoment_gaussian _ h2).posSemidef.isHermitian
    rw [← h1.1] at h3
    exact congrArg (· * (1 : ℝ)) (congrFun (congrFun h3 _) _).symm
  refine ss_combine (Eq.trans ?_ e1) (Eq.trans ?_ (e2.trans ?_))
  · refine congrArg₂ (· + ·) ?_ (congrArg₂ (· + ·) ?_ ?_)
    · refine (ss_contribution_x P _ hsym).trans ?_
      exact (Fintype.sum_unique (ι := Unit) (fun _ => chainTerm (ssInitial P) (unitDyn fun _ d =>
        (chainRotateA R R⁻¹ (slogdet R) (ssRows P s) ((), d)).u) (inpFixed P.z)
        (gmcRotate R (some R⁻¹) (some (slogdet R)) { u := s.u SS.x (), phi := s.phi SS.x (), g := s.g SS.x () }))).symm
    · refine Eq.trans ?_ (Fintype.sum_prod_type _).symm
      refine Eq.trans ?_ (Fintype.sum_unique (ι := Unit) _).symm
      refine Finset.sum_congr rfl fun d _ => (ss_contribution_a P _ d).trans ?_
      refine congrArg (fun v => ardTerm (ι := Fin P.D ⊕ Fin P.K) v (chainRotateA R R⁻¹ (slogdet R) (ssRows P s) ((), d))) ?_
      funext k
      change wrap0 (fixed0 (P.muA d k.1)) (gammaMoments ((ssRotate P R s).phi SS.alpha k.1)) k.2 = _
      rw [ss_rotate_alpha P hO ha hb]
      rfl
    · refine Eq.trans ?_ (Fintype.sum_prod_type _).symm
      refine Eq.trans ?_ (Fintype.sum_unique (ι := Unit) _).symm
      refine Eq.trans ?_ (Fintype.sum_unique (ι := Unit) _).symm
      refine Finset.sum_congr rfl fun j _ => (ss_contribution_alpha P _ j rfl rfl).trans ?_
      rw [ss_rotate_alpha P hO ha hb, ha, hb]
  · congr 1
    · refine Finset.sum_congr rfl fun i _ => (ss_contribution_c P _ i).trans ?_
      rw [ss_rotate_c P hR]
      refine congrArg (fun v => ardTerm (ι := Fin P.D) v _) ?_
      funext k
      change wrap0 (fixed0 (P.muC i k.1)) (gammaMoments ((ssRotate P R s).phi SS.gamma k.1)) k.2 = _
      rw [ss_rotate_gamma P hO hR]
      rfl
    · refine Eq.trans ?_ (Fintype.sum_unique (ι := Unit) _).symm
      refine Finset.sum_congr rfl fun d _ => (ss_contribution_gamma P _ d rfl rfl).trans ?_
      rw [ss_rotate_gamma P hO hR]
  · rw [el, Fintype.card_fin]
    rfl

theorem ardRotatePlates_one {L ι : Type*} [Fintype L] [DecidableEq L] [Fintype ι] [DecidableEq ι] (s : L → ExpState (GIx ι)) (l : L)
    (hs : StateConsistent gaussianMoments gaussianCgf (s l)) (hd : ((-2 : ℝ) • g1 (s l).phi).PosDef) :
    ardRotatePlates 1 s l = s l := by
  have hc : colSum (1 : Matrix L L ℝ) l = 1 := by
    simp [colSum, Matrix.one_apply]
  have e0 : (fun j => ∑ k, (1 : Matrix L L ℝ) l k * g0 (s k).u j) = g0 (s l).u := by
    funext j
    simp [Matrix.one_apply]
  have e1 : g0 (s l).u = ((-2 : ℝ) • g1 (s l).phi)⁻¹ *ᵥ g0 (s l).phi := by
    rw [hs.1]
    rfl
  have e2 : (-2 : ℝ) • (g1 (s l).phi *ᵥ g0 (s l).u) = g0 (s l).phi := by
    rw [← smul_mulVec, e1, mulVec_mulVec, mul_nonsing_inv _ hd.det_pos.ne'.isUnit, one_mulVec]
  have e3 : mkG ((-2 : ℝ) • (((colSum (1 : Matrix L L ℝ) l ^ (-2 : ℤ)) • g1 (s l).phi) *ᵥ fun j => ∑ k, (1 : Matrix L L ℝ) l k * g0 (s k).u j))
      ((colSum (1 : Matrix L L ℝ) l ^ (-2 : ℤ)) • g1 (s l).phi) = (s l).phi := by
    rw [e0, hc, _root_.one_zpow, one_smul, e2, mkG_eta]
  unfold ardRotatePlates
  simp only [e3]
  rw [← hs.1, ← hs.2]

theorem gmcRotate_one {M D : Nat} (s : ExpState (GMCIx M D)) :
    gmcRotate (1 : Matrix (Fin D) (Fin D) ℝ) (some 1) (some 0) s = s := by
  unfold gmcRotate
  simp only [Option.getD_some, transpose_one, one_mulVec, Matrix.one_mul, Matrix.mul_one, mul_zero, add_zero, mkC_eta]

theorem ss_rotateX_one {s : (ssNet P).State} (hs : ∀ n, Consistent (ssNet P) (ssDom P) n s) :
    ssRotateX P 1 1⁻¹ (slogdet (1 : Matrix (Fin P.D) (Fin P.D) ℝ)) s = s := by
  have e : slogdet (1 : Matrix (Fin P.D) (Fin P.D) ℝ) = 0 := by simp [slogdet]
  have hx := gmcRotate_one (M := P.M) (D := P.D) ⟨s.u SS.x (), s.phi SS.x (), s.g SS.x ()⟩
  have ha : ∀ d : Fin P.D, chainRotateA (κ := Fin P.K) 1 1 0 (ssRows P s) ((), d) = ssRows P s () d := by
    intro d
    unfold chainRotateA
    simp only [transpose_one, withInputs_one, neg_zero, gaussianRotate_one]
    exact ardRotatePlates_one _ d (ss_rows_consistent P hs d).1 (ss_rows_consistent P hs d).2
  unfold ssRotateX
  simp only [inv_one, e]
  refine Net.State.ext ?_ ?_ ?_ rfl
  · have h1 : Function.update s.phi SS.x (fun _ => (gmcRotate (M := P.M) (D := P.D) 1 (some 1) (some 0)
        ⟨s.u SS.x (), s.phi SS.x (), s.g SS.x ()⟩).phi) = s.phi := by
      rw [hx]
      exact Function.update_eq_self _ _
    rw [h1]
    exact (congrArg (Function.update s.phi SS.a) (funext fun d => congrArg ExpState.phi (ha d))).trans (Function.update_eq_self _ _)
  · have h1 : Function.update s.u SS.x (fun _ => (gmcRotate (M := P.M) (D := P.D) 1 (some 1) (some 0)
        ⟨s.u SS.x (), s.phi SS.x (), s.g SS.x ()⟩).u) = s.u := by
      rw [hx]
      exact Function.update_eq_self _ _
    rw [h1]
    exact (congrArg (Function.update s.u SS.a) (funext fun d => congrArg ExpState.u (ha d))).trans (Function.update_eq_self _ _)
  · have h1 : Function.update s.g SS.x (fun _ => (gmcRotate (M := P.M) (D := P.D) 1 (some 1) (some 0)
        ⟨s.u SS.x (), s.phi SS.x (), s.g SS.x ()⟩).g) = s.g := by
      rw [hx]
      exact Function.update_eq_self _ _
    rw [h1]
    exact (congrArg (Function.update s.g SS.a) (funext fun d => congrArg ExpState.g (ha d))).trans (Function.update_eq_self _ _)

theorem ss_rotateC_one (s : (ssNet P).State) : ssRotateC P (1⁻¹)ᵀ 1ᵀ (-slogdet (1 : Matrix (Fin P.D) (Fin P.D) ℝ)) s = s := by
  have h := fun i : Fin P.J => gaussianRotate_one (ι := Fin P.D) ⟨s.u SS.c i, s.phi SS.c i, s.g SS.c i⟩
  have e : slogdet (1 : Matrix (Fin P.D) (Fin P.D) ℝ) = 0 := by simp [slogdet]
  unfold ssRotateC
  simp only [inv_one, transpose_one, e, neg_zero]
  exact Net.State.ext ((congrArg (Function.update s.phi SS.c) (funext fun j => congrArg ExpState.phi (h j))).trans (Function.update_eq_self _ _))
    ((congrArg (Function.update s.u SS.c) (funext fun j => congrArg ExpState.u (h j))).trans (Function.update_eq_self _ _))
    ((congrArg (Function.update s.g SS.c) (funext fun j => congrArg ExpState.g (h j))).trans (Function.update_eq_self _ _)) rfl

/-- **C68** `RotationOptimizer.rotate` in the linear state-space model: for every invertible matrix whose columns do not sum to
zero, the lower bound changes by exactly as much as the cost function says, compared with the identity; hence the bound never
decreases if the cost did not increase.  The state after it is again one to which everything said about updates applies. -/
theorem C68_state_space (data : Fin P.J → Fin (P.M + 1) → ℝ) (hP : SSValid P) (hO : SSObserved P) (pre : Bool) {a0 b0 : ℝ}
    (ha : ∀ j, P.aA j = a0) (hb : ∀ j, P.bA j = b0) (s : (ssNet P).State) (hs : SSState P data s)
    (R : Matrix (Fin P.D) (Fin P.D) ℝ) (hR : R.det ≠ 0) (hQ : ∀ d, colSum R d ≠ 0) :
    (ssNet P).bound (ssRotate P R s) - (ssNet P).bound (ssRotate P 1 s)
      = -(ssCost P pre a0 b0 s R - ssCost P pre a0 b0 s 1) ∧
    (ssCost P pre a0 b0 s R ≤ ssCost P pre a0 b0 s 1 → (ssNet P).bound s ≤ (ssNet P).bound (ssRotate P R s)) ∧
    SSState P data (ssRotate P R s) := by
  obtain ⟨C, h⟩ := ss_rotate_bound P data hP hO pre ha hb s hs
  have h1 : (1 : Matrix (Fin P.D) (Fin P.D) ℝ).det ≠ 0 := by rw [det_one]; exact one_ne_zero
  have e : (ssNet P).bound (ssRotate P R s) - (ssNet P).bound (ssRotate P 1 s)
      = -(ssCost P pre a0 b0 s R - ssCost P pre a0 b0 s 1) := by
    rw [h R hR hQ, h 1 h1 colSum_one]
    ring
  refine ⟨e, fun hc => ?_, ?_⟩
  · have e1 : ssRotate P 1 s = (ssNet P).update SS.gamma ((ssNet P).update SS.alpha s) := by
      refine congrArg ((ssNet P).update SS.gamma) ?_
      rw [ss_rotateX_one P hs.1]
      exact ss_rotateC_one P _
    have h2 := (C23_state_space P data hP s hs [SS.alpha, SS.gamma]).1
    change (ssNet P).bound s ≤ (ssNet P).bound ((ssNet P).update SS.gamma ((ssNet P).update SS.alpha s)) at h2
    rw [e1] at e
    linarith
  · refine ss_update P data hP _ ?_ SS.gamma
    have h2 : SSState P data ((ssNet P).update SS.alpha (ssRotateX P R R⁻¹ (slogdet R) s)) := by
      refine ss_update P data hP (ssRotateX P R R⁻¹ (slogdet R) s) ⟨fun n => ?_, fun i j hm => hs.2 i j hm⟩ SS.alpha
      change SS at n
      cases n
      · exact hs.1 SS.alpha
      · intro d _
        obtain ⟨c1, c2⟩ := ss_rows_rotate P hs.1 hR hQ d
        exact ⟨c2, c1.1, c1.2⟩
      · intro _ _
        obtain ⟨d, eu, eg⟩ := hs.1 SS.x () rfl
        obtain ⟨⟨c1, c2⟩, c3⟩ := C46_gaussian_chain_rotate R hR none none ⟨by simp, by simp⟩
          ⟨s.u SS.x (), s.phi SS.x (), s.g SS.x ()⟩ ⟨eu, eg⟩ d
        exact ⟨c3, c1, c2⟩
      · exact hs.1 SS.gamma
      · exact hs.1 SS.c
      · exact hs.1 SS.tau
      · exact hs.1 SS.y
    generalize (ssNet P).update SS.alpha (ssRotateX P R R⁻¹ (slogdet R) s) = s' at h2
    refine ⟨fun n => ?_, fun i j hm => h2.2 i j hm⟩
    change SS at n
    cases n
    · exact h2.1 SS.alpha
    · exact h2.1 SS.a
    · exact h2.1 SS.x
    · exact h2.1 SS.gamma
    · intro i _
      obtain ⟨d, eu, eg⟩ := h2.1 SS.c i rfl
      obtain ⟨⟨c1, c2⟩, c3⟩ := C46_gaussian_rotate R⁻¹ᵀ (C46_opposite_args R hR).1 (some Rᵀ) (some (-slogdet R))
        (C46_opposite_args R hR).2 ⟨s'.u SS.c i, s'.phi SS.c i, s'.g SS.c i⟩ ⟨eu, eg⟩ d
      exact ⟨c3, c1, c2⟩
    · exact h2.1 SS.tau
    · exact h2.1 SS.y

theorem exSS_observed : SSObserved exSS :=
  ⟨by decide, by decide, by decide, fun i => ⟨(1 : Fin 5), by change Fin 3 at i; fin_cases i <;> rfl⟩⟩

/-- an input signal, one value missing, a shear -/
example : let s := ssInit exSS (fun i j => i + j) (fun _ _ => 1) (fun _ _ => 0) fun _ _ => 1
    (ssNet exSS).bound (ssRotate exSS exShear s) - (ssNet exSS).bound (ssRotate exSS 1 s)
      = -(ssCost exSS true 1 1 s exShear - ssCost exSS true 1 1 s 1) :=
  (C68_state_space exSS (fun i j => i + j) exSS_valid exSS_observed true (fun _ => rfl) (fun _ => rfl) _ (ssInit_state exSS _ _ _ _)
    exShear exShear_det exShear_colSum).1

theorem eventually_colSum {D : Nat} (R E : Matrix (Fin D) (Fin D) ℝ) (hQ : ∀ d, colSum R d ≠ 0) :
    ∀ᶠ t : ℝ in 𝓝 0, ∀ d, colSum (R + t • E) d ≠ 0 := by
  refine Filter.eventually_all.2 fun d => ?_
  have hc : Continuous fun t : ℝ => colSum (R + t • E) d := by
    unfold colSum
    simp only [Matrix.add_apply, Matrix.smul_apply, smul_eq_mul]
    fun_prop
  refine hc.continuousAt.eventually_ne ?_
  rw [zero_smul, add_zero]
  exact hQ d

/-- **C68** What the cost function returns besides the cost is its gradient, and minus the gradient of the lower bound of the
model after the rotation, if also the hyperparameters of `gamma` are the same for all components. -/
theorem C68_state_space_gradient (data : Fin P.J → Fin (P.M + 1) → ℝ) (hP : SSValid P) (hO : SSObserved P) (pre : Bool) {a0 b0 c0 : ℝ}
    (ha : ∀ j, P.aA j = a0) (hb : ∀ j, P.bA j = b0) (hc : P.aC = fun _ => c0) (s : (ssNet P).State) (hs : SSState P data s)
    (R E : Matrix (Fin P.D) (Fin P.D) ℝ) (hR : R.det ≠ 0) (hQ : ∀ d, colSum R d ≠ 0) :
    let grad := (rotationCost (ssBlockX P pre a0 b0 s) (ssBlockC P s) R).2
    HasDerivAt (fun t : ℝ => ssCost P pre a0 b0 s (R + t • E)) (frob grad E) 0 ∧
    HasDerivAt (fun t : ℝ => (ssNet P).bound (ssRotate P (R + t • E) s)) (-frob grad E) 0 := by
  intro grad
  have h1 : HasDerivAt (fun t : ℝ => ssCost P pre a0 b0 s (R + t • E)) (frob grad E) 0 := by
    have hv : (gw2 (ssInitial P))ᵀ = gw2 (ssInitial P) := by
      have e : gw2 (ssInitial P) = P.Lambda0 := by
        funext i j
        exact one_mul _
      have := hP.2.2.1.isHermitian
      rw [IsHermitian, conjTranspose_eq_transpose_of_trivial] at this
      rw [e, this]
    have hb0 : 0 < b0 := by
      have := hP.2.1 (.inl ⟨0, hO.1⟩)
      rwa [hb] at this
    refine C67_cost (ssBlockX P pre a0 b0 s) (ssBlockC P s) R E hR ?_ ?_
    · have := C67_chain_block (P := Unit) (B := Unit) (A₁ := Unit) (A₂ := Unit) (K := Fin P.D ⊕ Fin P.K) (M := P.M)
        (D := P.D) (κ := Fin P.K) (fun _ _ => ()) (fun _ => ssInitial P) (fun _ => hv) (fun _ => inpFixed P.z)
        (fun _ m k l => mul_comm _ _) (fun _ => s.u SS.x ())
        (fun _ n => by
          have := (ss_second_x hs.1 n).posSemidef.isHermitian
          rwa [IsHermitian, conjTranspose_eq_transpose_of_trivial] at this)
        (ssRows P s) (fun _ d => (ss_rows_consistent P hs.1 d).1)
        (fun _ d => (ss_rows_consistent P hs.1 d).2) pre (fun _ => ()) (fun _ => ()) id 1 P.D 1
        (fun _ j => s.phi SS.alpha j (1 : Fin 2)) a0 b0 hb0
        (fun _ d j => fixed0 (P.muA d j)) (fun _ d j => le_of_eq (sq _)) (fun _ j => s.u SS.alpha j)
        (fun _ j => ss_alpha_pos hs.1 j) R hR hQ
      rw [Fintype.card_fin] at this
      exact this
    · refine BlockGradient.at ?_ (C46_opposite_args R hR).1
      have h := C59_ard_update P.J P.J 1 id (fun (_ : Unit) (d : Fin P.D) => s.phi SS.gamma d (1 : Fin 2)) c0 (fun _ => P.bC)
        (ardSetup (P := Fin P.J) (ι := Fin P.D) (fun _ => ()) (s.u SS.c) fun i => ssSlot P .c () s.u i)
        (setup_symm (Q := Fin P.J) _ _ _ (ss_second_c hs.1)) fun R _ q k =>
          (ardRate_pos (P := Fin P.J) (A := Unit) (fun _ => ()) id (fun _ => P.bC) (fun _ => hP.2.2.2.2.1) (fun i d => fixed0 (P.muC i d))
            (fun i d => le_of_eq (sq _)) (fun _ d => s.u SS.gamma d) (fun _ => ss_gamma_pos hs.1)
            (fun i => ⟨s.u SS.c i, s.phi SS.c i, s.g SS.c i⟩) (fun i => ss_second_c hs.1 i) R q k).ne'
      have e : ssBlockC P s = ⟨fun R l V => (ardBoundUpdate P.J P.J 1 id (fun (_ : Unit) (d : Fin P.D) => s.phi SS.gamma d (1 : Fin 2))
          (fun _ _ => c0) (fun _ => P.bC) (ardSetup (P := Fin P.J) (ι := Fin P.D) (fun _ => ()) (s.u SS.c) fun i => ssSlot P .c () s.u i) R l,
          ardGradUpdate P.J P.J 1 id (fun (_ : Unit) (d : Fin P.D) => s.phi SS.gamma d (1 : Fin 2)) (fun _ => c0) (fun _ => P.bC)
            (ardSetup (P := Fin P.J) (ι := Fin P.D) (fun _ => ()) (s.u SS.c) fun i => ssSlot P .c () s.u i) R V)⟩ := by
        unfold ssBlockC
        rw [hc]
      rw [e]
      exact h
  refine ⟨h1, ?_⟩
  obtain ⟨C, h⟩ := ss_rotate_bound P data hP hO pre ha hb s hs
  refine (h1.neg.add_const C).congr_of_eventuallyEq ?_
  filter_upwards [eventually_isUnit_line R E hR.isUnit, eventually_colSum R E hQ] with t ht hq
  exact h _ ht.ne_zero hq

/-- in the direction of the second row -/
example : let s := ssInit exSS (fun i j => i + j) (fun _ _ => 1) (fun _ _ => 0) fun _ _ => 1
    HasDerivAt (fun t : ℝ => (ssNet exSS).bound (ssRotate exSS (exShear + t • (!![0, 0; 1, 1] : Matrix (Fin 2) (Fin 2) ℝ)) s))
      (-frob (rotationCost (ssBlockX exSS true 1 1 s) (ssBlockC exSS s) exShear).2 (!![0, 0; 1, 1] : Matrix (Fin 2) (Fin 2) ℝ)) 0 :=
  (C68_state_space_gradient exSS (fun i j => i + j) exSS_valid exSS_observed true (fun _ => rfl) (fun _ => rfl) rfl _
    (ssInit_state exSS _ _ _ _) exShear _ exShear_det exShear_colSum).2

end

end Verif
