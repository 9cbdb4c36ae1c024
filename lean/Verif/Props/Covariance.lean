import Mathlib.Analysis.SpecialFunctions.ExpDeriv
import Mathlib.Analysis.Calculus.Deriv.Pow
import Mathlib.Analysis.Calculus.Deriv.Inv
import Verif.Spec.Covariance
import Verif.Model.Covariance
import Verif.Lemmas.GaussianKernel
import Verif.Lemmas.RowMajor

/-! # C77: covariance functions give covariance matrices and their gradients -/

namespace Verif
open Spec Matrix

/-! ### inputs -/

theorem mem_indices_pair {m n : ℕ} (i : Fin m) (k : Fin n) : [(i : ℕ), (k : ℕ)] ∈ indices [m, n] :=
  mem_indices_cons.2 ⟨i.2, mem_indices_cons.2 ⟨k.2, mem_indices_nil.2 rfl⟩⟩

theorem npReshape_ok {α : Type} (X : Arr α) (s : List Nat) (h : s.prod = X.shape.prod) : ∃ Y, npReshape X s = .ok Y := by
  unfold npReshape; rw [if_pos h]; exact ⟨_, rfl⟩

/-- A standardized input has one row for each point. -/
theorem C77_input {x : Arr ℝ} {N D : ℕ} {P : Fin N → Fin D → ℝ} (h : IsInput x N D P) :
    ∃ y D', gpStandardizeInput x = .ok y ∧ y.shape = [N, D'] ∧
      (N ≠ 0 → D' = D ∧ ∀ (i : Fin N) (k : Fin D), y.get (coord [i, k]) = P i k) := by
  cases h with
  | matrix _ hs hD h =>
    rcases Nat.eq_zero_or_pos N with hN | hN
    · subst hN
      obtain ⟨Y, hY⟩ := npReshape_ok x [0, 0] (by rw [hs]; simp)
      exact ⟨Y, 0, by unfold gpStandardizeInput; rw [if_pos (by rw [hs]; simp), hY], (npReshape_get hY).1,
        fun h => absurd rfl h⟩
    · have hD' : D ≠ 0 := hD.resolve_left hN.ne'
      refine ⟨x, D, ?_, hs, fun _ => ⟨rfl, h⟩⟩
      unfold gpStandardizeInput
      rw [if_neg (by rw [hs]; simp [hN.ne', hD']), if_neg (by rw [hs]; simp), if_neg (by rw [hs]; simp),
        if_pos (by rw [hs]; simp)]
  | vector _ hs h =>
    rcases Nat.eq_zero_or_pos N with hN | hN
    · subst hN
      obtain ⟨Y, hY⟩ := npReshape_ok x [0, 0] (by rw [hs]; simp)
      exact ⟨Y, 0, by unfold gpStandardizeInput; rw [if_pos (by rw [hs]; simp), hY], (npReshape_get hY).1,
        fun h => absurd rfl h⟩
    · obtain ⟨Y, hY⟩ := npReshape_ok x [N, 1] (by rw [hs]; simp)
      refine ⟨Y, 1, ?_, (npReshape_get hY).1, fun _ => ⟨rfl, fun i k => ?_⟩⟩
      · unfold gpStandardizeInput
        rw [if_neg (by rw [hs]; simp [hN.ne']), if_neg (by rw [hs]; simp), if_pos (by rw [hs]; simp)]
        rw [hs]; simpa using hY
      · rw [← h i k]
        refine npReshape_index hY (by simp) (by rw [hs]; exact mem_indices_cons.2 ⟨i.2, mem_indices_nil.2 rfl⟩) ?_
        rw [hs]; simp [rowMajor]
  | scalar _ hs h =>
    obtain ⟨Y, hY⟩ := npReshape_ok x [1, 1] (by rw [hs]; simp)
    refine ⟨Y, 1, ?_, (npReshape_get hY).1, fun _ => ⟨rfl, fun i k => ?_⟩⟩
    · unfold gpStandardizeInput
      rw [if_neg (by rw [hs]; simp), if_pos (by rw [hs]; simp), hY]
    · rw [← h i k]
      refine npReshape_index hY (by simp) (by rw [hs]; exact mem_indices_nil.2 rfl) ?_
      rw [hs]; simp [rowMajor]

/-- the example: three points on a line -/
theorem isInput_line : IsInput ⟨[3], fun c => (c 0 : ℝ)⟩ 3 1 (fun i _ => (i : ℝ)) :=
  .vector _ rfl fun i k => by simp [coord]

example : ∃ y D', gpStandardizeInput ⟨[3], fun c => (c 0 : ℝ)⟩ = .ok y ∧ y.shape = [3, D'] ∧
    ((3 : ℕ) ≠ 0 → D' = 1 ∧ ∀ (i : Fin 3) (k : Fin 1), y.get (coord [i, k]) = (i : ℝ)) := C77_input isInput_line

/-- Arrays with three axes or more are refused. -/
theorem C77_input_raises (x : Arr ℝ) (h0 : x.shape.prod ≠ 0) (h : 2 < x.shape.length) :
    gpStandardizeInput x = .error .exception := by
  unfold gpStandardizeInput
  rw [if_neg h0, if_neg (by omega), if_neg (by omega), if_neg (by omega)]

example : gpStandardizeInput ⟨[2, 1, 3], fun _ => 0⟩ = .error .exception := C77_input_raises _ (by simp) (by simp)

/-- Points without coordinates get lost: an array of `N` points with no coordinates becomes no points, so the covariance
matrix has no rows. -/
theorem C77_no_coordinates_refuted (N : ℕ) (f : (Nat → Nat) → ℝ) (a l : ℝ) :
    ∃ K, covfuncSe ⟨[], fun _ => a⟩ ⟨[], fun _ => l⟩ ⟨[N, 0], f⟩ .same false = .ok (K, []) ∧ K.shape = [0, 0] := by
  simp [covfuncSe, arrayToScalar, gpPreprocessInputs, gpStandardizeInput, npReshape, covSe, squaredDistance, Arr.scale,
    gpCovSe, bind, Except.bind, pure, Except.pure]

/-! ### the squared exponential covariance -/

theorem arrayToScalar_ok {X : Arr ℝ} {a : ℝ} (h : HoldsNumber X a) : arrayToScalar X = .ok a := by
  unfold arrayToScalar; rw [if_neg (by rw [h.1]; simp), h.2]

theorem hasDerivAt_se_amplitude {D : ℕ} (a l : ℝ) (ha : a ≠ 0) (x y : Fin D → ℝ) :
    HasDerivAt (fun t => squaredExponential t l x y) (squaredExponential a l x y * (2 / a)) a := by
  have h := ((hasDerivAt_pow 2 a).mul_const (Real.exp (-(∑ k, (x k - y k) ^ 2) / (2 * l ^ 2))))
  refine h.congr_deriv ?_
  simp only [squaredExponential]; push_cast; field_simp

theorem hasDerivAt_se_lengthscale {D : ℕ} (a l : ℝ) (hl : l ≠ 0) (x y : Fin D → ℝ) :
    HasDerivAt (fun t => squaredExponential a t x y)
      ((∑ k, (x k - y k) ^ 2) / l ^ 2 / l * squaredExponential a l x y) l := by
  have h1 : HasDerivAt (fun t : ℝ => (t ^ 2)⁻¹) (-(2 * l) / (l ^ 2) ^ 2) l := by
    have h := (hasDerivAt_pow 2 l).inv (pow_ne_zero 2 hl)
    refine h.congr_deriv ?_
    push_cast; ring
  have h2 := (h1.const_mul (-(∑ k, (x k - y k) ^ 2) / 2)).exp.const_mul (a ^ 2)
  have e : (fun t => squaredExponential a t x y) =
      fun t => a ^ 2 * Real.exp (-(∑ k, (x k - y k) ^ 2) / 2 * (t ^ 2)⁻¹) := by
    funext t; rw [squaredExponential, ← div_div, div_eq_mul_inv (_ / 2) (t ^ 2)]
  rw [e]
  refine h2.congr_deriv ?_
  rw [squaredExponential, ← div_div, div_eq_mul_inv (_ / 2) (l ^ 2)]
  generalize Real.exp _ = E
  generalize ∑ k, (x k - y k) ^ 2 = S
  field_simp

/-- the squared distances of scaled points -/
theorem squaredDistance_points {y1 y2 : Arr ℝ} {N1 N2 D D1 D2 : ℕ} {P1 : Fin N1 → Fin D → ℝ} {P2 : Fin N2 → Fin D → ℝ}
    (l : ℝ) (hs1 : y1.shape = [N1, D1]) (hs2 : y2.shape = [N2, D2])
    (h1 : N1 ≠ 0 → D1 = D ∧ ∀ (i : Fin N1) (k : Fin D), y1.get (coord [i, k]) = P1 i k)
    (h2 : N2 ≠ 0 → D2 = D ∧ ∀ (i : Fin N2) (k : Fin D), y2.get (coord [i, k]) = P2 i k) :
    ∃ Z, squaredDistance (y1.scale (1 / l)) (y2.scale (1 / l)) = .ok Z ∧ Z.shape = [N1, N2] ∧
      ∀ (i : Fin N1) (j : Fin N2), Z.get (coord [i, j]) = (∑ k, (P1 i k - P2 j k) ^ 2) / l ^ 2 := by
  have e1 : (y1.scale (1 / l)).shape = [N1, D1] := hs1
  have e2 : (y2.scale (1 / l)).shape = [N2, D2] := hs2
  unfold squaredDistance
  rw [e1, e2]
  simp only
  by_cases h0 : N1 = 0 ∨ N2 = 0
  · rw [if_pos h0]
    refine ⟨_, rfl, rfl, fun i j => ?_⟩
    rcases h0 with h | h
    · exact absurd i.2 (by omega)
    · exact absurd j.2 (by omega)
  · rw [if_neg h0]
    push Not at h0
    obtain ⟨rfl, g1⟩ := h1 h0.1
    obtain ⟨rfl, g2⟩ := h2 h0.2
    rw [if_neg (by simp)]
    refine ⟨_, rfl, rfl, fun i j => ?_⟩
    simp only [Arr.scale]
    have ei : coord [(i : ℕ), (j : ℕ)] 1 = i := by simp [coord]
    have ej : coord [(i : ℕ), (j : ℕ)] 0 = j := by simp [coord]
    rw [ei, ej, Finset.sum_range, Finset.sum_div]
    refine Finset.sum_congr rfl fun k _ => ?_
    rw [g1, g2]
    ring

theorem se_of_distance {D : ℕ} (a l : ℝ) (x y : Fin D → ℝ) :
    Real.exp (-0.5 * ((∑ k, (x k - y k) ^ 2) / l ^ 2)) * a ^ 2 = squaredExponential a l x y := by
  rw [squaredExponential, mul_comm]
  congr 2
  rw [← div_div]; ring

/-- what `covfunc_se` gives for two sets of points: the covariance function and its gradients -/
def SeOutput {N1 N2 D : ℕ} (a l : ℝ) (P1 : Fin N1 → Fin D → ℝ) (P2 : Fin N2 → Fin D → ℝ) (K Ga Gl : Arr ℝ) : Prop :=
  (K.shape = [N1, N2] ∧ Ga.shape = [N1, N2] ∧ Gl.shape = [N1, N2]) ∧ ∀ (i : Fin N1) (j : Fin N2),
    K.get (coord [i, j]) = squaredExponential a l (P1 i) (P2 j) ∧
    HasDerivAt (fun t => squaredExponential t l (P1 i) (P2 j)) (Ga.get (coord [i, j])) a ∧
    HasDerivAt (fun t => squaredExponential a t (P1 i) (P2 j)) (Gl.get (coord [i, j])) l

theorem se_output {y1 y2 : Arr ℝ} {N1 N2 D D1 D2 : ℕ} {P1 : Fin N1 → Fin D → ℝ} {P2 : Fin N2 → Fin D → ℝ}
    {a l : ℝ} (ha : a ≠ 0) (hl : l ≠ 0) (hs1 : y1.shape = [N1, D1]) (hs2 : y2.shape = [N2, D2])
    (h1 : N1 ≠ 0 → D1 = D ∧ ∀ (i : Fin N1) (k : Fin D), y1.get (coord [i, k]) = P1 i k)
    (h2 : N2 ≠ 0 → D2 = D ∧ ∀ (i : Fin N2) (k : Fin D), y2.get (coord [i, k]) = P2 i k) :
    ∃ Z, squaredDistance (y1.scale (1 / l)) (y2.scale (1 / l)) = .ok Z ∧
      SeOutput a l P1 P2 ((gpCovSe Z).scale (a ^ 2)) (((gpCovSe Z).scale (a ^ 2)).scale (2 / a))
        ⟨((gpCovSe Z).scale (a ^ 2)).shape, fun c => Z.get c / l * ((gpCovSe Z).scale (a ^ 2)).get c⟩ := by
  obtain ⟨Z, hZ, hs, hg⟩ := squaredDistance_points l hs1 hs2 h1 h2
  refine ⟨Z, hZ, ⟨hs, hs, hs⟩, fun i j => ?_⟩
  have e : ((gpCovSe Z).scale (a ^ 2)).get (coord [i, j]) = squaredExponential a l (P1 i) (P2 j) := by
    simp only [gpCovSe, Arr.scale, hg]; exact se_of_distance a l _ _
  refine ⟨e, ?_, ?_⟩
  · have := hasDerivAt_se_amplitude a l ha (P1 i) (P2 j)
    rw [← e] at this; exact this
  · have := hasDerivAt_se_lengthscale a l hl (P1 i) (P2 j)
    rw [← e] at this; simp only [hg]; exact this

/-- The squared exponential covariance of two sets of points and its gradients. -/
theorem C77_se {amplitude lengthscale x1 x2 : Arr ℝ} {a l : ℝ} {N1 N2 D : ℕ} {P1 : Fin N1 → Fin D → ℝ}
    {P2 : Fin N2 → Fin D → ℝ} (ha : HoldsNumber amplitude a) (hl : HoldsNumber lengthscale l) (ha0 : a ≠ 0) (hl0 : l ≠ 0)
    (h1 : IsInput x1 N1 D P1) (h2 : IsInput x2 N2 D P2) :
    ∃ K Ga Gl, covfuncSe amplitude lengthscale x1 (.other x2) false = .ok (K, []) ∧
      covfuncSe amplitude lengthscale x1 (.other x2) true = .ok (K, [Ga, Gl]) ∧ SeOutput a l P1 P2 K Ga Gl := by
  obtain ⟨y1, D1, e1, s1, g1⟩ := C77_input h1
  obtain ⟨y2, D2, e2, s2, g2⟩ := C77_input h2
  obtain ⟨Z, hZ, hO⟩ := se_output ha0 hl0 s1 s2 g1 g2
  exact ⟨_, _, _, by simp only [covfuncSe, arrayToScalar_ok ha, arrayToScalar_ok hl, gpPreprocessInputs, e1, e2, covSe, hZ, bind,
      Except.bind, pure, Except.pure]; rfl,
    by simp only [covfuncSe, arrayToScalar_ok ha, arrayToScalar_ok hl, gpPreprocessInputs, e1, e2, covSe, hZ, bind,
      Except.bind, pure, Except.pure]; rfl, hO⟩

/-- The covariance matrix of one set of points is the one of the points with themselves; it is positive semidefinite, and
positive definite exactly if the points are different. -/
theorem C77_se_matrix {amplitude lengthscale x : Arr ℝ} {a l : ℝ} {N D : ℕ} {P : Fin N → Fin D → ℝ}
    (ha : HoldsNumber amplitude a) (hl : HoldsNumber lengthscale l) (ha0 : a ≠ 0) (hl0 : l ≠ 0) (h : IsInput x N D P) :
    ∃ K Ga Gl, covfuncSe amplitude lengthscale x .same false = .ok (K, []) ∧
      covfuncSe amplitude lengthscale x .same true = .ok (K, [Ga, Gl]) ∧ SeOutput a l P P K Ga Gl ∧
      (toMatrix K N N).PosSemidef ∧ ((toMatrix K N N).PosDef ↔ Function.Injective P) := by
  obtain ⟨y1, D1, e1, s1, g1⟩ := C77_input h
  obtain ⟨Z, hZ, hO⟩ := se_output ha0 hl0 s1 s1 g1 g1
  refine ⟨_, _, _, by simp only [covfuncSe, arrayToScalar_ok ha, arrayToScalar_ok hl, gpPreprocessInputs, e1, covSe, hZ, bind,
      Except.bind, pure, Except.pure]; rfl,
    by simp only [covfuncSe, arrayToScalar_ok ha, arrayToScalar_ok hl, gpPreprocessInputs, e1, covSe, hZ, bind,
      Except.bind, pure, Except.pure]; rfl, hO, ?_⟩
  have hM : toMatrix ((gpCovSe Z).scale (a ^ 2)) N N =
      a ^ 2 • Matrix.of fun i j => Real.exp (-(∑ k, (P i k / l - P j k / l) ^ 2) / 2) := by
    ext i j
    rw [toMatrix, Matrix.of_apply, (hO.2 i j).1, Matrix.smul_apply, Matrix.of_apply, squaredExponential, smul_eq_mul]
    congr 2
    simp only [← sub_div, div_pow, ← Finset.sum_div]
    rw [← neg_div, div_div, mul_comm]
  have ha2 : 0 < a ^ 2 := by positivity
  rw [hM]
  refine ⟨(gaussian_posSemidef fun i k => P i k / l).smul ha2.le, fun hp i j hij => ?_, fun hi => ?_⟩
  · by_contra hne
    -- equal points give equal rows
    have hv := hp.dotProduct_mulVec_pos (x := Pi.single i 1 - Pi.single j 1) (fun h0 => by
      have := congrFun h0 i
      simp [Pi.single_eq_of_ne hne] at this)
    refine absurd hv (not_lt.2 (le_of_eq ?_))
    rw [mulVec_sub, star_trivial, mulVec_single_one, mulVec_single_one]
    have : (a ^ 2 • Matrix.of fun i j => Real.exp (-(∑ k, (P i k / l - P j k / l) ^ 2) / 2) : Matrix (Fin N) (Fin N) ℝ).col i =
        (a ^ 2 • Matrix.of fun i j => Real.exp (-(∑ k, (P i k / l - P j k / l) ^ 2) / 2) : Matrix (Fin N) (Fin N) ℝ).col j := by
      funext m
      simp [Matrix.col, hij]
    rw [this, sub_self, dotProduct_zero]
  · refine (gaussian_posDef (fun i k => P i k / l) fun i j hij => hi (funext fun k => ?_)).smul ha2
    have := congrFun hij k
    field_simp at this
    exact this

/-- Without second points: the variances, which are the covariances of the points with themselves. -/
theorem C77_se_variance {amplitude lengthscale x : Arr ℝ} {a l : ℝ} {N D : ℕ} {P : Fin N → Fin D → ℝ}
    (ha : HoldsNumber amplitude a) (hl : HoldsNumber lengthscale l) (ha0 : a ≠ 0) (hl0 : l ≠ 0) (h : IsInput x N D P) :
    ∃ K Ga Gl, covfuncSe amplitude lengthscale x .none false = .ok (K, []) ∧
      covfuncSe amplitude lengthscale x .none true = .ok (K, [Ga, Gl]) ∧
      K.shape = [N] ∧ Ga.shape = [N] ∧ Gl.shape = [N] ∧ ∀ i : Fin N,
        K.get (coord [i]) = squaredExponential a l (P i) (P i) ∧
        HasDerivAt (fun t => squaredExponential t l (P i) (P i)) (Ga.get (coord [i])) a ∧
        HasDerivAt (fun t => squaredExponential a t (P i) (P i)) (Gl.get (coord [i])) l := by
  obtain ⟨y1, D1, e1, s1, g1⟩ := C77_input h
  refine ⟨⟨[rowCount y1], fun _ => 1 * a ^ 2⟩, Arr.scale (2 / a) ⟨[rowCount y1], fun _ => 1 * a ^ 2⟩, ⟨[rowCount y1], fun _ => 0⟩,
    by simp [covfuncSe, arrayToScalar_ok ha, arrayToScalar_ok hl, gpPreprocessInputs, e1, covSe, bind, Except.bind, pure,
      Except.pure],
    by simp [covfuncSe, arrayToScalar_ok ha, arrayToScalar_ok hl, gpPreprocessInputs, e1, covSe, bind, Except.bind, pure,
      Except.pure],
    ?_, ?_, ?_, fun i => ⟨?_, ?_, ?_⟩⟩
  · simp [rowCount, s1]
  · simp [rowCount, s1, Arr.scale]
  · simp [rowCount, s1]
  · simp [squaredExponential]
  · have := hasDerivAt_se_amplitude a l ha0 (P i) (P i)
    simpa [squaredExponential, Arr.scale] using this
  · have := hasDerivAt_se_lengthscale a l hl0 (P i) (P i)
    simpa [squaredExponential] using this

example : ∃ K Ga Gl, covfuncSe ⟨[], fun _ => 2⟩ ⟨[1], fun _ => 3⟩ ⟨[3], fun c => (c 0 : ℝ)⟩ .same false = .ok (K, []) ∧
    covfuncSe ⟨[], fun _ => 2⟩ ⟨[1], fun _ => 3⟩ ⟨[3], fun c => (c 0 : ℝ)⟩ .same true = .ok (K, [Ga, Gl]) ∧
    SeOutput 2 3 (fun (i : Fin 3) (_ : Fin 1) => (i : ℝ)) (fun (i : Fin 3) (_ : Fin 1) => (i : ℝ)) K Ga Gl ∧
    (toMatrix K 3 3).PosSemidef ∧ ((toMatrix K 3 3).PosDef ↔ Function.Injective fun (i : Fin 3) (_ : Fin 1) => (i : ℝ)) :=
  C77_se_matrix ⟨by simp, rfl⟩ ⟨by simp, rfl⟩ (by norm_num) (by norm_num) isInput_line

/-- another input: two points on a line, as a matrix -/
theorem isInput_column : IsInput ⟨[2, 1], fun c => (c 1 : ℝ) + 1 / 2⟩ 2 1 (fun i _ => (i : ℝ) + 1 / 2) :=
  .matrix _ rfl (Or.inr (by simp)) fun i k => by simp [coord]

example : ∃ K Ga Gl, covfuncSe ⟨[], fun _ => 2⟩ ⟨[1], fun _ => 3⟩ ⟨[3], fun c => (c 0 : ℝ)⟩
    (.other ⟨[2, 1], fun c => (c 1 : ℝ) + 1 / 2⟩) false = .ok (K, []) ∧ covfuncSe ⟨[], fun _ => 2⟩ ⟨[1], fun _ => 3⟩
    ⟨[3], fun c => (c 0 : ℝ)⟩ (.other ⟨[2, 1], fun c => (c 1 : ℝ) + 1 / 2⟩) true = .ok (K, [Ga, Gl]) ∧
    SeOutput 2 3 (fun (i : Fin 3) (_ : Fin 1) => (i : ℝ)) (fun (i : Fin 2) (_ : Fin 1) => (i : ℝ) + 1 / 2) K Ga Gl :=
  C77_se ⟨by simp, rfl⟩ ⟨by simp, rfl⟩ (by norm_num) (by norm_num) isInput_line isInput_column

/-! ### noise -/

/-- The noise covariance: the identity times the variance for the points themselves, positive definite; no covariance between
different arrays; the variances; and the gradients. -/
theorem C77_delta {amplitude x1 x2 : Arr ℝ} {a : ℝ} {N1 N2 D : ℕ} {P1 : Fin N1 → Fin D → ℝ} {P2 : Fin N2 → Fin D → ℝ}
    (ha : HoldsNumber amplitude a) (ha0 : a ≠ 0) (h1 : IsInput x1 N1 D P1) (h2 : IsInput x2 N2 D P2) :
    (∃ K G, covfuncDelta amplitude x1 .same false = .ok (K, []) ∧ covfuncDelta amplitude x1 .same true = .ok (K, [G]) ∧
      K.shape = [N1, N1] ∧ G.shape = [N1, N1] ∧ toMatrix K N1 N1 = a ^ 2 • 1 ∧ (toMatrix K N1 N1).PosDef ∧
      ∀ i j, HasDerivAt (fun t : ℝ => (t ^ 2 • (1 : Matrix (Fin N1) (Fin N1) ℝ)) i j) (toMatrix G N1 N1 i j) a) ∧
    (∃ K G, covfuncDelta amplitude x1 (.other x2) false = .ok (K, []) ∧
      covfuncDelta amplitude x1 (.other x2) true = .ok (K, [G]) ∧
      K.shape = [N1, N2] ∧ G.shape = [N1, N2] ∧ toMatrix K N1 N2 = 0 ∧ toMatrix G N1 N2 = 0) ∧
    (∃ K G, covfuncDelta amplitude x1 .none false = .ok (K, []) ∧ covfuncDelta amplitude x1 .none true = .ok (K, [G]) ∧
      K.shape = [N1] ∧ G.shape = [N1] ∧ ∀ i : Fin N1, K.get (coord [i]) = a ^ 2 ∧
      HasDerivAt (fun t : ℝ => t ^ 2) (G.get (coord [i])) a) := by
  obtain ⟨y1, D1, e1, s1, g1⟩ := C77_input h1
  obtain ⟨y2, D2, e2, s2, g2⟩ := C77_input h2
  have hd : HasDerivAt (fun t : ℝ => t ^ 2) (a ^ 2 * (2 / a)) a := by
    refine (hasDerivAt_pow 2 a).congr_deriv ?_
    push_cast; field_simp
  have hr : rowCount y1 = N1 := by simp [rowCount, s1]
  have hr2 : rowCount y2 = N2 := by simp [rowCount, s2]
  refine ⟨⟨covDelta a y1 .same, (covDelta a y1 .same).scale (2 / a),
      by simp [covfuncDelta, arrayToScalar_ok ha, gpPreprocessInputs, e1, bind, Except.bind, pure, Except.pure],
      by simp [covfuncDelta, arrayToScalar_ok ha, gpPreprocessInputs, e1, bind, Except.bind, pure, Except.pure],
      ?_, ?_, ?_, ?_, ?_⟩,
    ⟨covDelta a y1 (.other y2), (covDelta a y1 (.other y2)).scale (2 / a),
      by simp [covfuncDelta, arrayToScalar_ok ha, gpPreprocessInputs, e1, e2, bind, Except.bind, pure, Except.pure],
      by simp [covfuncDelta, arrayToScalar_ok ha, gpPreprocessInputs, e1, e2, bind, Except.bind, pure, Except.pure],
      ?_, ?_, ?_, ?_⟩,
    ⟨covDelta a y1 .none, (covDelta a y1 .none).scale (2 / a),
      by simp [covfuncDelta, arrayToScalar_ok ha, gpPreprocessInputs, e1, bind, Except.bind, pure, Except.pure],
      by simp [covfuncDelta, arrayToScalar_ok ha, gpPreprocessInputs, e1, bind, Except.bind, pure, Except.pure],
      ?_, ?_, fun i => ⟨?_, ?_⟩⟩⟩
  · simp [covDelta, gpCovDelta, Arr.scale, hr]
  · simp [covDelta, gpCovDelta, Arr.scale, hr]
  · ext i j
    simp [toMatrix, covDelta, gpCovDelta, Arr.scale, coord, Matrix.one_apply, eq_comm, Fin.ext_iff]
  · have : toMatrix (covDelta a y1 .same) N1 N1 = a ^ 2 • 1 := by
      ext i j
      simp [toMatrix, covDelta, gpCovDelta, Arr.scale, coord, Matrix.one_apply, eq_comm, Fin.ext_iff]
    rw [this]
    exact Matrix.PosDef.one.smul (by positivity)
  · intro i j
    have e : toMatrix ((covDelta a y1 .same).scale (2 / a)) N1 N1 i j =
        a ^ 2 * (2 / a) * (1 : Matrix (Fin N1) (Fin N1) ℝ) i j := by
      simp [toMatrix, covDelta, gpCovDelta, Arr.scale, coord, Matrix.one_apply, eq_comm, Fin.ext_iff]
    rw [e]
    exact hd.mul_const _
  · simp [covDelta, hr, hr2]
  · simp [covDelta, Arr.scale, hr, hr2]
  · ext i j; simp [toMatrix, covDelta]
  · ext i j; simp [toMatrix, covDelta, Arr.scale]
  · simp [covDelta, hr]
  · simp [covDelta, Arr.scale, hr]
  · simp [covDelta]
  · simpa [covDelta, Arr.scale] using hd

example : ∃ K G, covfuncDelta ⟨[], fun _ => 2⟩ ⟨[3], fun c => (c 0 : ℝ)⟩ .same false = .ok (K, []) ∧
    covfuncDelta ⟨[], fun _ => 2⟩ ⟨[3], fun c => (c 0 : ℝ)⟩ .same true = .ok (K, [G]) ∧ K.shape = [3, 3] ∧ G.shape = [3, 3] ∧
    toMatrix K 3 3 = (2 : ℝ) ^ 2 • 1 ∧ (toMatrix K 3 3).PosDef ∧
    ∀ i j, HasDerivAt (fun t : ℝ => (t ^ 2 • (1 : Matrix (Fin 3) (Fin 3) ℝ)) i j) (toMatrix G 3 3 i j) 2 :=
  (C77_delta ⟨by simp, rfl⟩ (by norm_num) isInput_line isInput_column).1

/-! ### piecewise polynomials -/

/-- the derivative, by the product rule -/
noncomputable def ppDeriv (j : ℕ) (r : ℝ) : ℝ :=
  -((j : ℝ) + 2) * (1 - r) ^ (j + 1) * (((j : ℝ) ^ 2 + 4 * j + 3) * r ^ 2 + (3 * j + 6) * r + 3) / 3 +
    (1 - r) ^ (j + 2) * (2 * ((j : ℝ) ^ 2 + 4 * j + 3) * r + (3 * j + 6)) / 3

theorem pp_hasDerivAt (d : ℕ) (r : ℝ) : HasDerivAt (piecewisePolynomial d) (ppDeriv (d / 2 + 3) r) r := by
  unfold ppDeriv
  generalize hj : d / 2 + 3 = j
  have h1 : HasDerivAt (fun r : ℝ => (1 - r) ^ (j + 2)) (-((j + 2 : ℝ)) * (1 - r) ^ (j + 1)) r := by
    have h := ((hasDerivAt_id r).const_sub 1).pow (j + 2)
    refine h.congr_deriv ?_
    simp only [id, show j + 2 - 1 = j + 1 by omega]; push_cast; ring
  have h2 : HasDerivAt (fun r : ℝ => ((j : ℝ) ^ 2 + 4 * j + 3) * r ^ 2 + (3 * j + 6) * r + 3)
      (2 * ((j : ℝ) ^ 2 + 4 * j + 3) * r + (3 * j + 6)) r := by
    have h := (((hasDerivAt_pow 2 r).const_mul ((j : ℝ) ^ 2 + 4 * j + 3)).add
      ((hasDerivAt_id r).const_mul (3 * (j : ℝ) + 6))).add_const 3
    refine h.congr_deriv ?_
    push_cast; ring
  have h := (h1.mul h2).div_const 3
  unfold piecewisePolynomial
  simp only [hj]
  refine h.congr_deriv ?_
  ring

/-- `gp_cov_pp2_new` gives the covariance function and its first two derivatives. -/
theorem C77_pp2_new (r : ℝ) (d : ℕ) :
    gpCovPp2New r d 0 = some (piecewisePolynomial d r) ∧
    (∃ g, gpCovPp2New r d 1 = some g ∧ HasDerivAt (piecewisePolynomial d) g r) ∧
    ∃ h, gpCovPp2New r d 2 = some h ∧ HasDerivAt (deriv (piecewisePolynomial d)) h r := by
  refine ⟨by simp [gpCovPp2New, piecewisePolynomial, show d / 2 + 2 + 1 = d / 2 + 3 by omega], ⟨_, rfl, ?_⟩, _, rfl, ?_⟩
  · refine (pp_hasDerivAt d r).congr_deriv ?_
    simp only [ppDeriv, show d / 2 + 2 + 1 = d / 2 + 3 by omega]
    ring
  · have e : deriv (piecewisePolynomial d) = fun r => ppDeriv (d / 2 + 3) r := by
      funext r; exact (pp_hasDerivAt d r).deriv
    rw [e]
    simp only [ppDeriv, show d / 2 + 2 + 1 = d / 2 + 3 by omega]
    generalize d / 2 + 3 = j
    have h0 : ∀ m : ℕ, HasDerivAt (fun r : ℝ => (1 - r) ^ (m + 1)) (-((m + 1 : ℝ)) * (1 - r) ^ m) r := by
      intro m
      have h := ((hasDerivAt_id r).const_sub 1).pow (m + 1)
      refine h.congr_deriv ?_
      simp only [id, Nat.add_sub_cancel]; push_cast; ring
    have h2 : HasDerivAt (fun r : ℝ => ((j : ℝ) ^ 2 + 4 * j + 3) * r ^ 2 + (3 * j + 6) * r + 3)
        (2 * ((j : ℝ) ^ 2 + 4 * j + 3) * r + (3 * j + 6)) r := by
      have h := (((hasDerivAt_pow 2 r).const_mul ((j : ℝ) ^ 2 + 4 * j + 3)).add
        ((hasDerivAt_id r).const_mul (3 * (j : ℝ) + 6))).add_const 3
      refine h.congr_deriv ?_
      push_cast; ring
    have h3 : HasDerivAt (fun r : ℝ => 2 * ((j : ℝ) ^ 2 + 4 * j + 3) * r + (3 * j + 6)) (2 * ((j : ℝ) ^ 2 + 4 * j + 3)) r := by
      have h := ((hasDerivAt_id r).const_mul (2 * ((j : ℝ) ^ 2 + 4 * j + 3))).add_const (3 * (j : ℝ) + 6)
      refine h.congr_deriv ?_
      ring
    have h := ((((h0 j).const_mul (-((j + 2 : ℝ)))).mul h2).div_const 3).add (((h0 (j + 1)).mul h3).div_const 3)
    refine h.congr_deriv ?_
    push_cast
    ring

/-- `gp_cov_pp2` gives the covariance function and its derivative, inside of the support. -/
theorem C77_pp2 (r : ℝ) (d : ℕ) (hr : r ≠ 1) :
    (gpCovPp2 r d).1 = piecewisePolynomial d r ∧ HasDerivAt (piecewisePolynomial d) (gpCovPp2 r d).2 r := by
  refine ⟨by simp [gpCovPp2, piecewisePolynomial, show d / 2 + 2 + 1 = d / 2 + 3 by omega], (pp_hasDerivAt d r).congr_deriv ?_⟩
  simp only [gpCovPp2, ppDeriv, show d / 2 + 2 + 1 = d / 2 + 3 by omega]
  generalize d / 2 + 3 = j
  have h1 : r - 1 ≠ 0 := sub_ne_zero.2 hr
  have e : (1 - r) ^ (j + 2) = -(r - 1) * (1 - r) ^ (j + 1) := by rw [pow_succ]; ring
  rw [e]
  field_simp

example : (gpCovPp2 (1 / 2) 3).1 = piecewisePolynomial 3 (1 / 2) ∧
    HasDerivAt (piecewisePolynomial 3) (gpCovPp2 (1 / 2) 3).2 (1 / 2) := C77_pp2 _ _ (by norm_num)

/-- The correlation of a point with itself is one, with zero slope; it decreases to zero at distance one, where it ends
smoothly. -/
theorem C77_pp2_shape (d : ℕ) : gpCovPp2New 0 d 0 = some 1 ∧ gpCovPp2New 0 d 1 = some 0 ∧
    (∀ m ≤ 2, gpCovPp2New 1 d m = some 0) ∧
    ∀ r ∈ Set.Ioo (0 : ℝ) 1, ∃ g, gpCovPp2New r d 1 = some g ∧ g < 0 := by
  refine ⟨by simp [gpCovPp2New], ?_, fun m hm => ?_, fun r hr => ⟨_, rfl, ?_⟩⟩
  · simp only [gpCovPp2New]; norm_num; ring
  · interval_cases m <;> simp [gpCovPp2New]
  · simp only [show d / 2 + 2 + 1 = d / 2 + 3 by omega]
    generalize hj : d / 2 + 3 = j
    have hr1 : 0 < 1 - r := by linarith [hr.2]
    have hr0 : 0 < r := hr.1
    have e : ((1 - r) ^ (j + 2) * (2 * ((j : ℝ) ^ 2 + 4 * j + 3) * r + (3 * j + 6)) +
        -((j : ℝ) + 2) * (1 - r) ^ (j + 1) * (((j : ℝ) ^ 2 + 4 * j + 3) * r ^ 2 + (3 * j + 6) * r + 3)) / 3 =
        -((1 - r) ^ (j + 1) * r * (((j : ℝ) ^ 2 + 4 * j + 3) * (j + 4) * r + (j ^ 2 + 7 * j + 12)) / 3) := by
      rw [pow_succ (1 - r) (j + 1)]; ring
    rw [e, neg_lt_zero]
    positivity

/-! ### functions that never return -/

/-- `covfunc_zeros` always raises. -/
theorem C77_zeros_raises (x1 : Arr ℝ) (x2 : SecondInput) : covfuncZeros x1 x2 = .error .nameError := rfl

/-- `covfunc_pp2` never returns, whatever it is given. -/
theorem C77_pp2_raises (amplitude lengthscale x1 : Arr ℝ) (x2 : SecondInput) (g : Bool) :
    ∀ y, covfuncPp2 amplitude lengthscale x1 x2 g ≠ .ok y := by
  intro y h
  unfold covfuncPp2 at h
  simp only [bind, Except.bind] at h
  split at h
  · cases h
  split at h
  · cases h
  split at h
  · cases h
  split at h <;> cases h

end Verif
