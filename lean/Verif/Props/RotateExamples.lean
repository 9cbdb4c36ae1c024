import Verif.Props.RotatePlates

/-!
# C82: examples
-/

namespace Verif
open Spec Matrix

/-- an upper triangular matrix -/
def demoR : Arr ℝ := ⟨[2, 2], fun c => if c 0 = c 1 then 2 else if c 0 = 1 then 1 else 0⟩

theorem demoR_det : (matrixOf demoR [] [2] [2]).det ≠ 0 := by
  have e : (matrixOf demoR [] [2] [2]).det = (matAt demoR 2 (coord [])).det := (det_matAt (P := []) rfl (by simp [indices])).symm
  rw [e, det_fin_two]
  simp [matAt, demoR, matCoord]

theorem demoR_args : RotationArgs 2 demoR none none := ⟨rfl, demoR_det, by simp, by simp⟩

/-- with the logarithm of the determinant given -/
theorem demoR_args' : RotationArgs 2 demoR none (some (pyNum (Real.log |(matrixOf demoR [] [2] [2]).det|))) :=
  ⟨rfl, demoR_det, by simp, fun l h => by obtain rfl := Option.some.inj h; exact ⟨rfl, rfl⟩⟩

example : ∃ Y, rotateMeanArr demoPhi0 demoR 0 2 = .ok Y ∧ ∀ p ∈ indices [3], AxisRotated demoR [] [2] p 2 2 demoPhi0 Y := by
  obtain ⟨Y, h1, _, h2⟩ := C82_rotate_mean (P := [3]) (a := []) (b := [2]) (n := 2) (m := 2) (X := demoPhi0) (R := demoR) (axis := 0)
    ⟨[3], rfl, BroadcastsTo_refl _⟩ rfl (.inl rfl)
  exact ⟨Y, h1, h2⟩

example : ∃ Y, rotateCovArr demoPhi1 demoR (-1) 2 = .ok Y ∧ ∀ p ∈ indices [3], AxesRotated demoR [2] [] p 2 2 demoPhi1 Y := by
  obtain ⟨Y, h1, _, h2⟩ := C82_rotate_covariance (P := [3]) (a := [2]) (b := []) (n := 2) (m := 2) (C := demoPhi1) (R := demoR)
    (axis := -1) ⟨[3], rfl, BroadcastsTo_refl _⟩ rfl (.inr rfl)
  exact ⟨Y, h1, h2⟩

example : rotateMeanArr demoPhi0 demoR 2 2 = .error .valueError := (C82_axis_raises (C := demoPhi1) (.inr (by decide))).1

/-- the arrays of a node of 2 × 2 variables on three plates -/
theorem demo_node : ∃ u0 u1 g, GaussNodeOn [3] [2, 2] demoPhi0 demoPhi1 u0 u1 g := by
  obtain ⟨u0, u1, g, _, h1, h2, h3, h4⟩ := C80_ard_moments (P0 := [3]) (P1 := [3]) (Q := [3]) (s := [2, 2]) (phi0 := demoPhi0)
    (phi1 := demoPhi1) rfl rfl demoPhi1_posDef (isBroadcast_self [3]) fun _ => demo_sub
  exact ⟨u0, u1, g, ⟨[3], rfl, BroadcastsTo_refl _⟩, ⟨[3], rfl, BroadcastsTo_refl _⟩, ⟨[3], h1, BroadcastsTo_refl _⟩, h2, h3, h4⟩

example : ∃ u0 u1 g st', ardRotateArr [2, 2] demoR none none (-2) ⟨demoPhi0, demoPhi1, u0, u1, g⟩ = .ok st' ∧
    AxisRotated demoR [] [2] [1] 2 2 u0 st'.u0 := by
  obtain ⟨u0, u1, g, h⟩ := demo_node
  obtain ⟨st', h1, _, h2⟩ := C82_ard_rotate (P := [3]) (a := []) (b := [2]) (n := 2) (st := ⟨demoPhi0, demoPhi1, u0, u1, g⟩) h demoR_args
    (axis := -2) (.inr rfl)
  exact ⟨u0, u1, g, st', h1, h2 [1] (by decide)⟩

example (st : GaussArrays) : ardRotateArr [2, 2] demoR none none 5 st = .error .valueError :=
  C82_ard_rotate_raises demoR_args (.inr (by decide))

/-- parameters of a vector on three plates that share the precision -/
noncomputable def demoVec : Arr ℝ × Arr ℝ := (⟨[3, 2], fun c => 1 + c 0 + c 1⟩, npScaleBy (-0.5) ⟨[2, 2], fun c => if c 0 = c 1 then 3 else 0⟩)

theorem demoVec_matrix : (-2 : ℝ) • matrixOf demoVec.2 [] [2] [2] = (3 : ℝ) • 1 := by
  ext i j
  obtain ⟨x, hx, e⟩ := mem_single i
  obtain ⟨y, hy, e'⟩ := mem_single j
  have hv : ValidIn [2, 2] (coord [x, y]) :=
    coord_valid (mem_indices_cons.2 ⟨hx, mem_indices_cons.2 ⟨hy, mem_indices_nil.2 rfl⟩⟩)
  have hij : i = j ↔ x = y := by
    rw [← Subtype.val_inj, e, e']; simp
  have h : (npScaleBy (-0.5) (⟨[2, 2], fun c => if c 0 = c 1 then 3 else 0⟩ : Arr ℝ)).at (coord [x, y])
      = -0.5 * (if y = x then 3 else 0) := by
    rw [scaleBy_at, Arr.at_of_valid _ hv]
    rfl
  simp only [Matrix.smul_apply, smul_eq_mul, matrixOf, of_apply, e, e', List.nil_append, one_apply, hij]
  show -2 * (npScaleBy (-0.5) (⟨[2, 2], fun c => if c 0 = c 1 then 3 else 0⟩ : Arr ℝ)).at (coord [x, y]) = _
  rw [h]
  by_cases hxy : x = y
  · simp [hxy]; norm_num
  · simp [hxy, Ne.symm hxy]

theorem demoVec_posDef : ∀ p ∈ indices [], ((-2 : ℝ) • matrixOf demoVec.2 p [2] [2]).PosDef := fun p hp => by
  rw [mem_indices_nil.1 hp, demoVec_matrix]
  exact PosDef.one.smul (by norm_num)

theorem vec_node : ∃ u0 u1 g, GaussNodeOn [3] [2] demoVec.1 demoVec.2 u0 u1 g := by
  obtain ⟨u0, u1, g, _, h1, h2, h3, h4⟩ := C80_ard_moments (P0 := [3]) (P1 := []) (Q := [3]) (s := [2]) (phi0 := demoVec.1)
    (phi1 := demoVec.2) rfl rfl demoVec_posDef (isBroadcast_nil [3]) fun _ => ⟨fun k => .inl (by simp [axisLen]), by simp⟩
  exact ⟨u0, u1, g, ⟨[3], rfl, BroadcastsTo_refl _⟩, ⟨[], rfl, by simp, fun k => .inl (by simp [axisLen])⟩, ⟨[3], h1, BroadcastsTo_refl _⟩, h2, h3, h4⟩

example : ∃ u0 u1 g st', gaussianRotateArr [2] demoR none (some (pyNum (Real.log |(matrixOf demoR [] [2] [2]).det|)))
    ⟨demoVec.1, demoVec.2, u0, u1, g⟩ = .ok st' ∧ vectorOf st'.u0 [1] [2] = matrixOf demoR [] [2] [2] *ᵥ vectorOf u0 [1] [2] := by
  obtain ⟨u0, u1, g, h⟩ := vec_node
  obtain ⟨st', h1, _, h2⟩ := C82_gaussian_rotate_partial (st := ⟨demoVec.1, demoVec.2, u0, u1, g⟩) h demoR_args'
  exact ⟨u0, u1, g, st', h1, h2 [1] (by decide)⟩

example (st : GaussArrays) : gaussianRotateArr [2, 2] demoR none none st = .error .notImplemented :=
  C82_gaussian_rotate_refuted (by decide)

theorem demoPhi1_symm : ∀ p ∈ indices [3], (matrixOf demoPhi1 p [2, 2] [2, 2])ᵀ = matrixOf demoPhi1 p [2, 2] [2, 2] := fun p hp => by
  have h := (demoPhi1_posDef p hp).1
  have : ((-2 : ℝ) • matrixOf demoPhi1 p [2, 2] [2, 2])ᵀ = (-2 : ℝ) • matrixOf demoPhi1 p [2, 2] [2, 2] := by
    simpa [conjTranspose_eq_transpose_of_trivial] using h.eq
  rw [transpose_smul] at this
  exact smul_right_injective _ (by norm_num : (-2 : ℝ) ≠ 0) this

/-- a bias without plates -/
def demoBias : Arr ℝ := ⟨[2, 2], fun c => 1 + c 0⟩

example : ∃ u0 u1 g st', translateArr [3] [2, 2] demoBias ⟨demoPhi0, demoPhi1, u0, u1, g⟩ = .ok st' ∧
    vectorOf st'.u0 [1] [2, 2] = vectorOf u0 [1] [2, 2] + vectorOf demoBias [1] [2, 2] := by
  obtain ⟨u0, u1, g, h⟩ := demo_node
  obtain ⟨st', h1, _, h2⟩ := C82_translate (d := demoBias) (st := ⟨demoPhi0, demoPhi1, u0, u1, g⟩) h demoPhi1_symm
    ⟨[], rfl, by simp, fun k => .inl (by simp [axisLen])⟩
  exact ⟨u0, u1, g, st', h1, h2 [1] (by decide)⟩

example (st : GaussArrays) : translateArr [3] [2, 3] demoR st = .error .valueError :=
  C82_translate_raises (by simp) (by decide)

/-- the arrays of a Gaussian-gamma node on three plates -/
noncomputable def demoG1 : Arr4 := (demoVec.1, demoVec.2, pyNum (-100), pyNum 2)

theorem demoVec_at (p : List Nat) : matrixOf demoVec.2 p [2] [2] = matrixOf demoVec.2 [] [2] [2] := matrixOf_no_plates rfl p

theorem gamma_node : ∃ u g m r, GammaNodeOn [3] [2] demoG1 u g m r ∧ ∀ p ∈ indices [3], u.2.2.1.at (coord p) ≠ 0 := by
  obtain ⟨u, g, _, h1, h2, h3⟩ := C81_gaussian_gamma_moments (P := [3]) (P0 := [3]) (P1 := []) (Q := [3]) (s := [2]) (phi := demoG1)
    rfl rfl (num_shape _ _) (num_shape _ _) demoVec_posDef (isBroadcast_nil [3]) (BroadcastsTo_refl _)
    (fun _ => ⟨fun k => .inl (by simp [axisLen]), by simp⟩) (by
      intro p hp
      have e : ((-2 : ℝ) • matrixOf demoG1.2.1 p [2] [2])⁻¹ = (3 : ℝ)⁻¹ • 1 := by
        show ((-2 : ℝ) • matrixOf demoVec.2 p [2] [2])⁻¹ = _
        rw [demoVec_at, demoVec_matrix]
        refine inv_eq_right_inv ?_
        rw [smul_mul_smul_comm, mul_one, mul_inv_cancel₀ (by norm_num), one_smul]
      have hx : ∀ i : MultiIndex [2], vectorOf demoVec.1 p [2] i * vectorOf demoVec.1 p [2] i ≤ 16 := by
        rintro ⟨i, hi⟩
        have hi' : i ∈ indices [2] := by simpa using hi
        have v := coord_valid (append_mem_indices hp hi' : p ++ i ∈ indices ([3] ++ [2]))
        have e : vectorOf demoVec.1 p [2] ⟨i, hi⟩ = 1 + coord (p ++ i) 0 + coord (p ++ i) 1 := by
          show demoVec.1.at (coord (p ++ i)) = _
          rw [Arr.at_of_valid _ (coord_valid (by exact append_mem_indices hp hi'))]
          rfl
        have v0 : coord (p ++ i) 0 ≤ 1 := Nat.lt_succ_iff.1 (v 0)
        have v1 : coord (p ++ i) 1 ≤ 2 := Nat.lt_succ_iff.1 (v 1)
        have w0 : (coord (p ++ i) 0 : ℝ) ≤ 1 := by exact_mod_cast v0
        have w1 : (coord (p ++ i) 1 : ℝ) ≤ 2 := by exact_mod_cast v1
        have z0 : (0 : ℝ) ≤ coord (p ++ i) 0 := by positivity
        have z1 : (0 : ℝ) ≤ coord (p ++ i) 1 := by positivity
        rw [e]
        nlinarith
      have e2 : demoG1.2.2.1.at (coord p) = -100 := rfl
      rw [e, smul_mulVec, one_mulVec, dotProduct_smul, smul_eq_mul, e2]
      have hdot : vectorOf demoG1.1 p [2] ⬝ᵥ vectorOf demoG1.1 p [2] ≤ 32 := by
        refine (Finset.sum_le_card_nsmul _ _ 16 fun i _ => hx i).trans ?_
        have : Fintype.card (MultiIndex [2]) = 2 := by decide
        rw [Finset.card_univ, this]
        norm_num
      linarith)
  choose! m r hr h using h3
  refine ⟨u, g, m, r, ⟨⟨⟨[3], rfl, BroadcastsTo_refl _⟩, ⟨[], rfl, by simp, fun k => .inl (by simp [axisLen])⟩, num_shape _ _, num_shape _ _⟩,
    h1, h2, h⟩, fun p hp => ?_⟩
  rw [(h p hp).u2]
  exact div_ne_zero (by show (2 : ℝ) ≠ 0; norm_num) (hr p hp).ne'

example : ∃ u g m r st', GammaNodeOn [3] [2] demoG1 u g m r ∧ ggRotateArr [3] [2] demoR none none ⟨demoG1, u, g⟩ = .ok st' ∧
    GammaNodeOn [3] [2] st'.phi st'.u st'.g (fun p => matrixOf demoR [] [2] [2] *ᵥ m p) r := by
  obtain ⟨u, g, m, r, h, _⟩ := gamma_node
  obtain ⟨st', h1, h2⟩ := C82_gaussian_gamma_rotate_partial (st := ⟨demoG1, u, g⟩) h demoR_args
  exact ⟨u, g, m, r, st', h, h1, h2⟩

example : ∃ u g m r st', GammaNodeOn [3] [2] demoG1 u g m r ∧ ggTranslateArr [3] [2] demoVec.1 ⟨demoG1, u, g⟩ = .ok st' ∧
    GammaNodeOn [3] [2] st'.phi st'.u st'.g (fun p => m p + vectorOf demoVec.1 p [2]) r := by
  obtain ⟨u, g, m, r, h, ht⟩ := gamma_node
  obtain ⟨st', h1, h2⟩ := C82_gaussian_gamma_translate_partial (d := demoVec.1) (st := ⟨demoG1, u, g⟩) h ht (fun p _ => by
    have h := (demoVec_posDef [] (by simp [indices])).1
    have : ((-2 : ℝ) • matrixOf demoVec.2 [] [2] [2])ᵀ = (-2 : ℝ) • matrixOf demoVec.2 [] [2] [2] := by
      simpa [conjTranspose_eq_transpose_of_trivial] using h.eq
    rw [transpose_smul] at this
    show (matrixOf demoVec.2 p [2] [2])ᵀ = matrixOf demoVec.2 p [2] [2]
    rw [demoVec_at]
    exact smul_right_injective _ (by norm_num : (-2 : ℝ) ≠ 0) this) ⟨[3], rfl, BroadcastsTo_refl _⟩
  exact ⟨u, g, m, r, st', h, h1, h2⟩

example (st : GammaArraysState) : ggRotateArr [3] [2, 2] demoR none none st = .error .notImplemented :=
  (C82_gaussian_gamma_refuted (d := demoR) (by decide)).1

example : ∃ y, matrixDotVector demoA demoPhi0 2 = .ok y ∧
    ∀ p ∈ indices [3], vectorOf y p [2, 2] = matrixOf demoA p [2, 2] [2, 2] *ᵥ vectorOf demoPhi0 p [2, 2] := by
  obtain ⟨y, h1, _, h2⟩ := C82_matrix_dot_vector (P := [3]) (s := [2, 2]) (A := demoA) (x := demoPhi0) ⟨[3], rfl, BroadcastsTo_refl _⟩
    ⟨[3], rfl, BroadcastsTo_refl _⟩
  exact ⟨y, h1, h2⟩

example : ∃ y, transposeCovArr demoPhi0 1 = .ok y ∧ ∀ p ∈ indices [3], matrixOf y p [2] [2] = (matrixOf demoPhi0 p [2] [2])ᵀ := by
  obtain ⟨y, h1, _, h2⟩ := C82_transpose_covariance (P := [3]) (s := [2]) (t := [2]) (C := demoPhi0) ⟨[3], rfl, BroadcastsTo_refl _⟩ rfl
  exact ⟨y, h1, h2⟩

/-- a matrix for the three plates whose columns have the sums 1, 2 and 3 -/
def demoQ : Arr ℝ := ⟨[3, 3], fun c => if c 1 = 0 then 1 + c 0 else 0⟩

example : ∃ u0 u1 g st', GaussNodeOn [3] [2, 2] demoPhi0 demoPhi1 u0 u1 g ∧
    rotatePlatesArr [3] [2, 2] demoQ (-1) ⟨demoPhi0, demoPhi1, u0, u1, g⟩ = .ok st' ∧
    vectorOf st'.u0 [1] [2, 2] = ∑ j ∈ Finset.range 3, demoQ.at (coord [1, j]) • vectorOf u0 [j] [2, 2] := by
  obtain ⟨u0, u1, g, e, h1, h2, h3, h4⟩ := C80_ard_moments (P0 := [3]) (P1 := [3]) (Q := [3]) (s := [2, 2]) (phi0 := demoPhi0)
    (phi1 := demoPhi1) rfl rfl demoPhi1_posDef (isBroadcast_self [3]) fun _ => demo_sub
  have h : GaussNodeOn [3] [2, 2] demoPhi0 demoPhi1 u0 u1 g :=
    ⟨⟨[3], rfl, BroadcastsTo_refl _⟩, ⟨[3], rfl, BroadcastsTo_refl _⟩, ⟨[3], h1, BroadcastsTo_refl _⟩, h2, h3, h4⟩
  obtain ⟨st', k1, _, k2⟩ := C82_rotate_plates (pa := []) (N := 3) (pb := []) (s := [2, 2]) (S1 := [3]) (Q := demoQ)
    (st := ⟨demoPhi0, demoPhi1, u0, u1, g⟩) (axis := -1) ⟨[], h1, BroadcastsTo_refl _⟩ rfl (BroadcastsTo_refl _) demoPhi1_posDef rfl
    (fun j hj => by
      have : ∑ l ∈ Finset.range 3, demoQ.at (coord [l, j]) = 1 + j := by
        simp [demoQ, Arr.at, restrict, axisLen, coord]
      rw [this]
      positivity) (.inr rfl)
  exact ⟨u0, u1, g, st', h, k1, (k2 [] (by simp [indices]) 1 (by decide) [] (by simp [indices])).1⟩

example (st : GaussArrays) : rotatePlatesArr [3] [2, 2] demoQ 1 st = .error .valueError := C82_rotate_plates_raises (.inr (by decide))

end Verif
