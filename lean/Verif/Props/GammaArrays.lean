import Verif.Props.GaussianArrays
import Verif.Model.GammaArrays
import Verif.Props.ExactExpectation

/-!
# C81: the Gaussian-gamma and Wishart distributions and the wrappers hold on every plate
-/

namespace Verif
open Spec Matrix

section
variable {P P0 P1 Q s : List Nat} {A B X Y : Arr ℝ}

/-! ## More operations on plates -/

theorem dot_entries (A B : Arr ℝ) (p s t : List Nat) :
    vectorOf A p (s ++ t) ⬝ᵥ vectorOf B p (s ++ t) = entries (matrixOf A p s t) (matrixOf B p s t) := by
  have h1 : vectorOf A p (s ++ t) ⬝ᵥ vectorOf B p (s ++ t)
      = sumOver (s ++ t) fun c => A.at (joinC (s ++ t).length c (coord p)) * B.at (joinC (s ++ t).length c (coord p)) := by
    rw [sumOver_multi]
    simp only [dotProduct, vectorOf_joinC]
  rw [h1, sumOver_append, sumOver_multi]
  unfold entries
  refine Finset.sum_congr rfl fun i _ => ?_
  rw [sumOver_multi]
  refine Finset.sum_congr rfl fun j _ => ?_
  have e : joinC (s ++ t).length (joinC t.length (coord j.1) (coord i.1)) (coord p) = coord (p ++ i.1 ++ j.1) := by
    have m := append_mem_indices (multi_mem i) (multi_mem j)
    rw [List.append_assoc, coord_joinC_mem m, coord_joinC_mem (multi_mem j)]
  rw [e]
  rfl

theorem po_entries (hA : PlatesDims A.shape P (s ++ s)) (hB : PlatesDims B.shape P (s ++ s)) :
    ∃ y, linInner [A, B] (2 * s.length) = .ok y ∧ BroadcastsTo y.shape P ∧
      ∀ p ∈ indices P, y.at (coord p) = entries (matrixOf A p s s) (matrixOf B p s s) := by
  obtain ⟨y, h1, h2, h3⟩ := po_inner hA hB
  refine ⟨y, by rw [two_mul, ← List.length_append]; exact h1, h2, fun p hp => ?_⟩
  rw [h3 p hp, dot_entries]

theorem mul_trail (hX : PlatesDims X.shape P s) (hY : BroadcastsTo Y.shape P) :
    ∃ r, npMul X (addTrailingAxes Y s.length) = .ok r ∧ PlatesDims r.shape P s ∧
      ∀ p, vectorOf r p s = Y.at (coord p) • vectorOf X p s := by
  obtain ⟨r, h1, h2, h3⟩ := po_mul_left hX (trailing_shape hY rfl)
  refine ⟨r, h1, h2, fun p => ?_⟩
  funext i
  show r.at _ = Y.at (coord p) * X.at _
  rw [h3, trailing_at (length_of_mem_indices (multi_mem i)), mul_comm]

theorem trail_at_pair {p : List Nat} (i j : MultiIndex s) : (addTrailingAxes Y (2 * s.length)).at (coord (p ++ i.1 ++ j.1)) = Y.at (coord p) := by
  rw [List.append_assoc, trailing_at]
  rw [List.length_append, length_of_mem_indices (multi_mem i), length_of_mem_indices (multi_mem j), two_mul]

theorem mul_trail2 (hX : PlatesDims X.shape P (s ++ s)) (hY : BroadcastsTo Y.shape P) :
    ∃ r, npMul X (addTrailingAxes Y (2 * s.length)) = .ok r ∧ PlatesDims r.shape P (s ++ s) ∧
      ∀ p, matrixOf r p s s = Y.at (coord p) • matrixOf X p s s := by
  obtain ⟨r, h1, h2, h3⟩ := po_mul_left hX (trailing_shape (n := 2 * s.length) hY (by rw [List.length_append, two_mul]))
  refine ⟨r, h1, h2, fun p => ?_⟩
  ext i j
  show r.at _ = Y.at (coord p) * X.at _
  rw [h3, trail_at_pair, mul_comm]

theorem trail_mul2 (hX : PlatesDims X.shape P (s ++ s)) (hY : BroadcastsTo Y.shape P) :
    ∃ r, npMul (addTrailingAxes Y (2 * s.length)) X = .ok r ∧ PlatesDims r.shape P (s ++ s) ∧
      ∀ p, matrixOf r p s s = Y.at (coord p) • matrixOf X p s s := by
  obtain ⟨r, hr, hB, hb, hat⟩ := npMul_common (trailing_shape (n := 2 * s.length) hY (by rw [List.length_append, two_mul]))
    hX.broadcastsTo
  refine ⟨r, hr, platesDims_of_isBroadcast hB hb (by simp) hX, fun p => ?_⟩
  ext i j
  show r.at _ = Y.at (coord p) * X.at _
  rw [hat, trail_at_pair]

theorem po_add2 (hX : PlatesDims X.shape P (s ++ s)) (hY : PlatesDims Y.shape P (s ++ s)) :
    ∃ r, npAdd X Y = .ok r ∧ PlatesDims r.shape P (s ++ s) ∧ ∀ p, matrixOf r p s s = matrixOf X p s s + matrixOf Y p s s := by
  obtain ⟨r, h1, h2, h3⟩ := po_add hX hY
  exact ⟨r, h1, h2, fun p => by ext i j; exact h3 _⟩

theorem sc_add (hX : BroadcastsTo X.shape P) (hY : BroadcastsTo Y.shape P) :
    ∃ r, npAdd X Y = .ok r ∧ BroadcastsTo r.shape P ∧ ∀ c, r.at c = X.at c + Y.at c := by
  obtain ⟨r, h1, _, h2, h3⟩ := npAdd_common hX hY
  exact ⟨r, h1, h2, h3⟩

theorem sc_mul (hX : BroadcastsTo X.shape P) (hY : BroadcastsTo Y.shape P) :
    ∃ r, npMul X Y = .ok r ∧ BroadcastsTo r.shape P ∧ ∀ c, r.at c = X.at c * Y.at c := by
  obtain ⟨r, h1, _, h2, h3⟩ := npMul_common hX hY
  exact ⟨r, h1, h2, h3⟩

theorem sc_sub (hX : BroadcastsTo X.shape P) (hY : BroadcastsTo Y.shape P) :
    ∃ r, npSub X Y = .ok r ∧ BroadcastsTo r.shape P ∧ ∀ c, r.at c = X.at c - Y.at c := npSub_common hX hY

theorem map_at (f : ℝ → ℝ) (X : Arr ℝ) (c : Nat → Nat) : (npMap f X).at c = f (X.at c) := rfl

theorem num_at (a : ℝ) (c : Nat → Nat) : (pyNum a).at c = a := rfl

theorem num_shape (a : ℝ) (P : List Nat) : BroadcastsTo (pyNum a).shape P := ⟨by simp [pyNum, npFull], fun k => .inl (by simp [pyNum, npFull, axisLen])⟩

theorem entries_smul_left {m n : Type*} [Fintype m] [Fintype n] (a : ℝ) (A B : Matrix m n ℝ) :
    entries (a • A) B = a * entries A B := by
  simp only [entries, Matrix.smul_apply, smul_eq_mul, Finset.mul_sum, mul_assoc]

theorem entries_comm {m n : Type*} [Fintype m] [Fintype n] (A B : Matrix m n ℝ) : entries A B = entries B A := by
  simp only [entries, mul_comm]

theorem entries_smul_right {m n : Type*} [Fintype m] [Fintype n] (a : ℝ) (A B : Matrix m n ℝ) :
    entries A (a • B) = a * entries A B := by
  rw [entries_comm, entries_smul_left, entries_comm]

theorem entries_add_left {m n : Type*} [Fintype m] [Fintype n] (A B C : Matrix m n ℝ) :
    entries (A + B) C = entries A C + entries B C := by
  simp only [entries, Matrix.add_apply, add_mul, Finset.sum_add_distrib]

theorem entries_outer {m n : Type*} [Fintype m] [Fintype n] (x : m → ℝ) (y : n → ℝ) (B : Matrix m n ℝ) :
    entries (vecMulVec x y) B = x ⬝ᵥ B *ᵥ y := by
  simp only [entries, dotProduct, mulVec, vecMulVec_apply, Finset.mul_sum]
  refine Finset.sum_congr rfl fun i _ => Finset.sum_congr rfl fun j _ => by ring

/-! ## Messages and natural parameters -/

/-- **C81** The message of `Gaussian` to its parent, its natural parameters and its cumulant function at the parent add up to the same
expected log density on every plate. -/
theorem C81_gaussian {u : Arr2} {v : Arr4} (hv : ShapedGW P s v) :
    ∃ m g, gaussianMessageArr 0 u = .ok m ∧ gaussianCgfArr v = .ok g ∧ BroadcastsTo g.shape P ∧
      ∀ p, pairGW s p m v = gaussianLog s p u v ∧
        pairG s p (gaussianPhiArr v.1 v.2.2.1) u + g.at (coord p) = gaussianLog s p u v := by
  obtain ⟨g, g1, g2, g3⟩ := sc_add (X := npScaleBy (-0.5) v.2.1) (Y := npScaleBy 0.5 v.2.2.2) hv.2.1 hv.2.2.2
  refine ⟨_, g, rfl, g1, g2, fun p => ⟨?_, ?_⟩⟩
  · simp only [pairGW, gaussianLog, matrixOf_scaleBy, entries_smul_left, num_at]
    ring
  · simp only [pairG, gaussianLog, gaussianPhiArr, matrixOf_scaleBy, entries_smul_left, g3, scaleBy_at]
    rw [dotProduct_comm, entries_comm]
    ring

theorem C81_gaussian_raises {u : Arr2} {i : Nat} (hi : i ≠ 0) : gaussianMessageArr i u = .error .valueError := by
  rw [gaussianMessageArr, if_neg hi]

/-- **C81** The same for `GaussianGamma` and its three parents: each message, paired with the moments of that parent, leaves a rest
in which these moments do not occur. -/
theorem C81_gaussian_gamma {u v : Arr4} {a b : Arr2} (hu : ShapedGG P s u) (hv : ShapedGW P s v) (ha : ShapedS P a) (hb : ShapedS P b) :
    ∃ phi g m1, ggPhiArr v a b = .ok phi ∧ ggCgfArr v a b = .ok g ∧ ggMessage1 u b = .ok m1 ∧ ShapedGG P s phi ∧
      BroadcastsTo g.shape P ∧ ShapedGW P s (ggMessage0 u) ∧ ShapedS P m1 ∧ ShapedS P (ggMessage2 u a) ∧
      ∀ p, pairGG s p phi u + g.at (coord p) = gaussianGammaLog s p u v a b ∧
        pairGW s p (ggMessage0 u) v + (a.1.at (coord p) * u.2.2.2.at (coord p) - b.1.at (coord p) * u.2.2.1.at (coord p)
          + a.1.at (coord p) * b.2.at (coord p) - a.2.at (coord p)) = gaussianGammaLog s p u v a b ∧
        pairS p m1 a + (vectorOf u.1 p s ⬝ᵥ vectorOf v.1 p s - 1 / 2 * entries (matrixOf u.2.1 p s s) (matrixOf v.2.2.1 p s s)
          - 1 / 2 * (u.2.2.1.at (coord p) * v.2.1.at (coord p)) + 1 / 2 * v.2.2.2.at (coord p)
          - b.1.at (coord p) * u.2.2.1.at (coord p)) = gaussianGammaLog s p u v a b ∧
        pairS p (ggMessage2 u a) b + (vectorOf u.1 p s ⬝ᵥ vectorOf v.1 p s
          - 1 / 2 * entries (matrixOf u.2.1 p s s) (matrixOf v.2.2.1 p s s)
          - 1 / 2 * (u.2.2.1.at (coord p) * v.2.1.at (coord p)) + 1 / 2 * v.2.2.2.at (coord p)
          + a.1.at (coord p) * u.2.2.2.at (coord p) - a.2.at (coord p)) = gaussianGammaLog s p u v a b := by
  obtain ⟨phi2, p1, p2, p3⟩ := sc_sub (X := npScaleBy (-0.5) v.2.1) (P := P) hv.2.1 hb.1
  obtain ⟨ab, q1, q2, q3⟩ := sc_mul (P := P) ha.1 hb.2
  obtain ⟨g, g1, g2, g3⟩ := sc_add (X := npScaleBy 0.5 v.2.2.2) (P := P) hv.2.2.2 q2
  obtain ⟨g', r1, r2, r3⟩ := sc_sub (P := P) g2 ha.2
  obtain ⟨m0, s1, s2, s3⟩ := sc_add (P := P) hu.2.2.2 hb.2
  refine ⟨(v.1, npScaleBy (-0.5) v.2.2.1, phi2, a.1), g', (m0, pyNum (-1)), ?_, ?_, ?_, ⟨hv.1, hv.2.2.1, p2, ha.1⟩, r2,
    ⟨hu.1, hu.2.2.1, hu.2.1, num_shape _ _⟩, ⟨s2, num_shape _ _⟩, ⟨hu.2.2.1, ha.1⟩, fun p => ⟨?_, ?_, ?_, ?_⟩⟩
  · unfold ggPhiArr; simp only [p1, bind, Except.bind, pure, Except.pure]
  · unfold ggCgfArr; simp only [q1, g1, r1, bind, Except.bind]
  · unfold ggMessage1; simp only [s1, bind, Except.bind, pure, Except.pure]
  · simp only [pairGG, gaussianGammaLog, matrixOf_scaleBy, entries_smul_left, r3, g3, q3, p3, scaleBy_at]
    rw [dotProduct_comm, entries_comm]
    ring
  · simp only [pairGW, ggMessage0, gaussianGammaLog, matrixOf_scaleBy, entries_smul_left, scaleBy_at, num_at]
    ring
  · simp only [pairS, gaussianGammaLog, s3, num_at]
    ring
  · simp only [pairS, ggMessage2, gaussianGammaLog, scaleBy_at]
    ring

/-- **C81** The same for `Wishart` and its scale matrix. -/
theorem C81_wishart {k : Nat} {u n V : Arr2} (hn : ShapedS P n) (hV : ShapedW P [k] V) (hu : ShapedW P [k] u) :
    ∃ m g, wishartMessageArr 1 u n = .ok m ∧ wishartCgfArr n V = .ok g ∧ BroadcastsTo g.shape P ∧ ShapedW P [k] (wishartPhiArr n V) ∧
      ShapedW P [k] m ∧
      ∀ p, pairW [k] p (wishartPhiArr n V) u + g.at (coord p) = wishartLog k p u n V ∧
        pairW [k] p m V + (n.1.at (coord p) / 2 * u.2.at (coord p) - n.1.at (coord p) * k / 2 * Real.log 2 - n.2.at (coord p))
          = wishartLog k p u n V := by
  have hk : axisLen V.1.shape 0 = k := by
    obtain ⟨S, h, _⟩ := hV.1
    rw [h, axisLen_append]; simp [axisLen]
  obtain ⟨nl, a1, a2, a3⟩ := sc_mul (X := npScaleBy 0.5 n.1) (P := P) hn.1 hV.2
  obtain ⟨g, b1, b2, b3⟩ := sc_sub (P := P) (Y := npMap (fun x => x * Real.log 2) (npScaleBy (0.5 * (k : ℝ)) n.1)) a2 hn.1
  obtain ⟨g', c1, c2, c3⟩ := sc_sub (P := P) b2 hn.2
  refine ⟨_, g', rfl, ?_, c2, ⟨hV.1, hn.1⟩, ⟨hu.1, hn.1⟩, fun p => ⟨?_, ?_⟩⟩
  · unfold wishartCgfArr
    simp only [hk, a1, b1, c1, bind, Except.bind]
  · simp only [pairW, wishartPhiArr, wishartLog, matrixOf_scaleBy, entries_smul_left, scaleBy_at, c3, b3, a3, map_at]
    ring
  · simp only [pairW, wishartLog, matrixOf_scaleBy, entries_smul_left, scaleBy_at]
    rw [entries_comm]
    ring

/-- **C81** The message of `Wishart` to its number of degrees of freedom is not implemented. -/
theorem C81_wishart_refuted {u n : Arr2} : wishartMessageArr 0 u n = .error .notImplemented ∧
    ∀ i, 2 ≤ i → wishartMessageArr i u n = .error .valueError :=
  ⟨rfl, fun i hi => by rw [wishartMessageArr, if_neg (by omega), if_neg (by omega)]⟩

/-! ## Moments -/

/-- the plates of an array of matrices, from its own to those of a node -/
theorem matrixOf_on {pa p : List Nat} (hX : X.shape = pa ++ s ++ s) (ha : BroadcastsTo pa P) (hp : p ∈ indices P) :
    ∃ q ∈ indices pa, matrixOf X p s s = matrixOf X q s s ∧ coord q = restrict pa (coord p) := by
  obtain ⟨q, hq, e⟩ := exists_restrict ha.2 hp
  exact ⟨q, hq, matrixOf_wider hX (BroadcastsTo_refl pa) e, e⟩

theorem inverse_on {V L Cov : Arr ℝ} (cL : IsCholeskyOf V L P1 s) (hV : V.shape = P1 ++ s ++ s) (h : cholInvAxes L s.length = .ok Cov)
    (hP : BroadcastsTo P1 P) : PlatesDims Cov.shape P (s ++ s) ∧ ∀ p ∈ indices P, matrixOf V p s s * matrixOf Cov p s s = 1 := by
  obtain ⟨C, c1, c2, c3⟩ := C76_inverse cL
  obtain rfl := Except.ok.inj (c1.symm.trans h)
  refine ⟨⟨P1, by rw [c2, List.append_assoc], hP⟩, fun p hp => ?_⟩
  obtain ⟨q, hq, e, e'⟩ := matrixOf_on hV hP hp
  rw [e, matrixOf_wider c2 (BroadcastsTo_refl P1) e']
  exact c3 q hq

theorem logdet_on {V L ld : Arr ℝ} (cL : IsCholeskyOf V L P1 s) (hV : V.shape = P1 ++ s ++ s) (h : cholLogdetAxes L s.length = .ok ld)
    (hP : BroadcastsTo P1 P) : BroadcastsTo ld.shape P ∧ ∀ p ∈ indices P, ld.at (coord p) = Real.log (matrixOf V p s s).det := by
  obtain ⟨C, c1, c2, c3⟩ := C76_logdet cL
  obtain rfl := Except.ok.inj (c1.symm.trans h)
  refine ⟨by rw [c2]; exact hP, fun p hp => ?_⟩
  obtain ⟨q, hq, e, e'⟩ := matrixOf_on hV hP hp
  rw [e, at_wider (X := C) (Q := P1) (by rw [c2]; exact BroadcastsTo_refl P1) e',
    Arr.at_of_valid C (by rw [c2]; exact coord_valid hq), c3 q hq]

/-- **C81** The moments and the cumulant function of `GaussianGamma` on every plate, over any axes. -/
theorem C81_gaussian_gamma_moments {phi : Arr4} (h0 : phi.1.shape = P0 ++ s) (h1 : phi.2.1.shape = P1 ++ s ++ s)
    (h2 : BroadcastsTo phi.2.2.1.shape P) (h3 : BroadcastsTo phi.2.2.2.shape P)
    (hpd : ∀ p ∈ indices P1, ((-2 : ℝ) • matrixOf phi.2.1 p s s).PosDef) (hQ : IsBroadcast [P1, P0] Q) (hQP : BroadcastsTo Q P)
    (hsub : s ≠ [] → (∀ k, axisLen P1 k = 1 ∨ (k < P0.length ∧ axisLen P1 k = axisLen P0 k)) ∧ P1.length ≤ P0.length + 1)
    (hb : ∀ p ∈ indices P, vectorOf phi.1 p s ⬝ᵥ ((-2 : ℝ) • matrixOf phi.2.1 p s s)⁻¹ *ᵥ vectorOf phi.1 p s
      < -2 * phi.2.2.1.at (coord p)) :
    ∃ u g, ggMomentsArr s phi = .ok (u, g) ∧ ShapedGG P s u ∧ BroadcastsTo g.shape P ∧
      ∀ p ∈ indices P, ∃ m b, 0 < b ∧ GaussianGammaOn s p phi u g m b := by
  have hV : (npScaleBy (-2) phi.2.1).shape = P1 ++ s ++ s := h1
  have b1 : BroadcastsTo P1 P := BroadcastsTo.trans' (IsBroadcast.to hQ (by simp)) hQP
  have b0 : BroadcastsTo P0 P := BroadcastsTo.trans' (IsBroadcast.to hQ (by simp)) hQP
  obtain ⟨L, c1, cL⟩ := C76_chol (npScaleBy (-2) phi.2.1) P1 s h1 fun p hp => by
    rw [matrixOf_neg_two]; exact hpd p hp
  obtain ⟨Cov, c2, _, _⟩ := C76_inverse cL
  obtain ⟨c2s, c2v⟩ := inverse_on cL hV c2 b1
  obtain ⟨ld, c3, _, _⟩ := C76_logdet cL
  obtain ⟨c3s, c3v⟩ := logdet_on cL hV c3 b1
  obtain ⟨mu, c4, c4s, c4v⟩ := solve_any cL h0 hQ hsub
  have pm : PlatesDims mu.shape P s := ⟨Q, c4s, hQP⟩
  obtain ⟨ip, c5, c5s, c5v⟩ := po_inner pm (⟨P0, h0, b0⟩ : PlatesDims phi.1.shape P s)
  obtain ⟨b, c6, c6s, c6v⟩ := sc_sub (X := npScaleBy (-1) phi.2.2.1) (Y := npScaleBy 0.5 ip) (P := P) h2 c5s
  obtain ⟨u2, c7, _, c7s, c7v⟩ := npMap2_common (fun x y : ℝ => x / y) h3 c6s
  obtain ⟨u3, c8, c8s, c8v⟩ := sc_add (X := npScaleBy (-1) (npMap Real.log b)) (Y := npMap digamma phi.2.2.2) (P := P) c6s h3
  obtain ⟨u0, c9, c9s, c9v⟩ := mul_trail pm c7s
  obtain ⟨oo, d1, d1s, d1v⟩ := po_outer pm pm rfl
  obtain ⟨mm, d2, d2s, d2v⟩ := mul_trail2 d1s c7s
  obtain ⟨u1, d3, d3s, d3v⟩ := po_add2 c2s d2s
  obtain ⟨ab, d4, d4s, d4v⟩ := sc_mul (X := phi.2.2.2) (Y := npMap Real.log b) (P := P) h3 c6s
  obtain ⟨g, d5, d5s, d5v⟩ := sc_add (X := npScaleBy 0.5 ld) (P := P) c3s d4s
  obtain ⟨g', d6, d6s, d6v⟩ := sc_sub (Y := npMap gammaln phi.2.2.2) (P := P) d5s h3
  refine ⟨(u0, u1, u2, u3), g', ?_, ⟨c9s, d3s, c7s, c8s⟩, d6s, fun p hp => ?_⟩
  · unfold ggMomentsArr
    simp only [c1, c2, c3, c4, c5, c6, c7, c8, c9, d1, d2, d3, d4, d5, d6, bind, Except.bind, pure, Except.pure]
  obtain ⟨q, hq, e⟩ := exists_restrict hQP.2 hp
  have hmean : ((-2 : ℝ) • matrixOf phi.2.1 p s s) *ᵥ vectorOf mu p s = vectorOf phi.1 p s := by
    rw [← matrixOf_neg_two, matrixOf_wider hV (IsBroadcast.to hQ (by simp)) e, vectorOf_wider c4s (BroadcastsTo_refl Q) e,
      vectorOf_wider h0 (IsBroadcast.to hQ (by simp)) e]
    exact c4v q hq
  have hb' : b.at (coord p) = -phi.2.2.1.at (coord p) - 1 / 2 * (vectorOf mu p s ⬝ᵥ vectorOf phi.1 p s) := by
    rw [c6v, scaleBy_at, scaleBy_at, c5v p hp]; ring
  refine ⟨vectorOf mu p s, b.at (coord p), ?_, hmean, hb', c7v _, ?_, ?_, ?_, ?_⟩
  · obtain ⟨q1, hq1, e1, _⟩ := matrixOf_on (X := phi.2.1) h1 b1 hp
    have hu : IsUnit ((-2 : ℝ) • matrixOf phi.2.1 p s s).det := by
      rw [e1]; exact (hpd q1 hq1).det_pos.ne'.isUnit
    have hm : ((-2 : ℝ) • matrixOf phi.2.1 p s s)⁻¹ *ᵥ vectorOf phi.1 p s = vectorOf mu p s := by
      rw [← hmean, mulVec_mulVec, nonsing_inv_mul _ hu, one_mulVec]
    have := hb p hp
    rw [hm, dotProduct_comm] at this
    rw [hb']; linarith
  · show u3.at (coord p) = _
    rw [c8v, scaleBy_at, map_at, map_at]
    unfold digamma gammaln
    ring
  · show vectorOf u0 p s = _
    rw [c9v, c7v]
  · show _ * (matrixOf u1 p s s - _) = 1
    rw [d3v, d2v, d1v p hp, c7v, add_sub_cancel_right, ← matrixOf_neg_two]
    exact c2v p hp
  · rw [d6v, d5v, d4v, scaleBy_at, map_at, map_at, c3v p hp, matrixOf_neg_two]
    unfold gammaln
    norm_num

/-- **C81** The moments of a fixed value of `GaussianGamma`. -/
theorem C81_gaussian_gamma_fixed {x alpha : Arr ℝ} (hx : PlatesDims x.shape P s) (ha : BroadcastsTo alpha.shape P) :
    ∃ u f, ggFixedArr s x alpha = .ok (u, f) ∧ ShapedGG P s u ∧ BroadcastsTo f.shape P ∧ ∀ p ∈ indices P,
      vectorOf u.1 p s = alpha.at (coord p) • vectorOf x p s ∧
      matrixOf u.2.1 p s s = alpha.at (coord p) • vecMulVec (vectorOf x p s) (vectorOf x p s) ∧
      u.2.2.1.at (coord p) = alpha.at (coord p) ∧ u.2.2.2.at (coord p) = Real.log (alpha.at (coord p)) ∧
      f.at (coord p) = ((s.prod : ℝ) / 2 - 1) * Real.log (alpha.at (coord p)) - s.prod / 2 * Real.log (2 * Real.pi) := by
  obtain ⟨u0, a1, a2, a3⟩ := mul_trail hx ha
  obtain ⟨xx, b1, b2, b3⟩ := po_outer hx hx rfl
  obtain ⟨u1, c1, c2, c3⟩ := mul_trail2 b2 ha
  have hD : ggSize s.length x.shape = s.prod := by
    obtain ⟨S, h, _⟩ := hx
    unfold ggSize
    rcases eq_or_ne s [] with rfl | hs
    · simp
    · rw [if_pos (List.length_pos_iff.2 hs), trailingShape, h]
      simp
  refine ⟨(u0, u1, alpha, npMap Real.log alpha),
    npMap (fun la => ((s.prod : ℝ) / 2 - 1) * la - s.prod / 2 * Real.log (2 * Real.pi)) (npMap Real.log alpha), ?_, ?_⟩
  · unfold ggFixedArr
    simp only [a1, b1, c1, hD, bind, Except.bind, pure, Except.pure]
  · exact ⟨⟨a2, c2, ha, ha⟩, ha, fun p hp => ⟨a3 p, by rw [c3, b3 p hp], rfl, rfl, rfl⟩⟩

/-- **C81** The moments and the cumulant function of `Wishart` on every plate. -/
theorem C81_wishart_moments {k : Nat} {phi : Arr2} (h0 : phi.1.shape = P0 ++ [k] ++ [k]) (hP : BroadcastsTo P0 P)
    (h1 : BroadcastsTo phi.2.shape P) (hpd : ∀ p ∈ indices P0, (-matrixOf phi.1 p [k] [k]).PosDef)
    (hn : ∀ i ∈ indices phi.2.shape, ((k : ℝ) - 1) / 2 < phi.2.at (coord i)) :
    ∃ u g, wishartMomentsArr phi = .ok (u, g) ∧ ShapedW P [k] u ∧ BroadcastsTo g.shape P ∧
      ∀ p ∈ indices P, WishartOn k p phi u g := by
  have hm : ∀ p, matrixOf (npScaleBy (-1) phi.1) p [k] [k] = -matrixOf phi.1 p [k] [k] := fun p => by
    rw [matrixOf_scaleBy, neg_one_smul]
  obtain ⟨L, c1, cL⟩ := C76_chol (npScaleBy (-1) phi.1) P0 [k] h0 fun p hp => by rw [hm]; exact hpd p hp
  obtain ⟨Cov, c2, _, _⟩ := C76_inverse cL
  obtain ⟨c2s, c2v⟩ := inverse_on cL h0 c2 hP
  obtain ⟨ld, c3, _, _⟩ := C76_logdet cL
  obtain ⟨c3s, c3v⟩ := logdet_on cL h0 c3 hP
  have hk : axisLen phi.1.shape 0 = k := by rw [h0, axisLen_append]; simp [axisLen]
  obtain ⟨u0, d1, d1s, d1v⟩ := trail_mul2 c2s h1
  obtain ⟨u1, d2, d2s, d2v⟩ := sc_add (X := npScaleBy (-1) ld) (Y := npMap (fun x => multidigamma x k) phi.2) (P := P) c3s h1
  obtain ⟨pl, d3, d3s, d3v⟩ := sc_mul (P := P) h1 c3s
  have d4 : multigammalnArr phi.2 k = .ok (npMap (fun x => multigammaln x k) phi.2) := by
    rw [multigammalnArr, if_pos]
    intro i hi
    have := hn i hi
    rw [Arr.at_of_valid _ (coord_valid hi)] at this
    linarith
  obtain ⟨g, d5, d5s, d5v⟩ := sc_sub (Y := npMap (fun x => multigammaln x k) phi.2) (P := P) d3s h1
  refine ⟨(u0, u1), g, ?_, ⟨d1s, d2s⟩, d5s, fun p hp => ⟨?_, ?_, ?_⟩⟩
  · simp only [List.length_singleton] at c1 c2 c3 d1
    unfold wishartMomentsArr
    simp only [hk, c1, c2, c3, d1, d2, d3, d4, d5, bind, Except.bind, pure, Except.pure]
  · show _ * matrixOf u0 p [k] [k] = _
    rw [d1v, ← hm, mul_smul_comm, c2v p hp]
  · show u1.at (coord p) = _
    rw [d2v, scaleBy_at, map_at, c3v p hp, hm]
    unfold multidigamma digamma gammaln
    rw [neg_one_mul, neg_add_eq_sub]
    congr 1
    exact Finset.sum_congr rfl fun j _ => by rw [show (0.5 : ℝ) * j = j / 2 by ring]
  · rw [d5v, d3v, map_at, c3v p hp, hm]
    unfold multigammaln gammaln
    congr 2
    exact Finset.sum_congr rfl fun j _ => by rw [show (0.5 : ℝ) * j = j / 2 by ring]

/-- **C81** Too few degrees of freedom on one plate: the function raises. -/
theorem C81_wishart_moments_raises {k : Nat} {phi : Arr2} (h0 : phi.1.shape = P0 ++ [k] ++ [k]) (hP : BroadcastsTo P0 P)
    (h1 : BroadcastsTo phi.2.shape P) (hpd : ∀ p ∈ indices P0, (-matrixOf phi.1 p [k] [k]).PosDef)
    (hn : ∃ i ∈ indices phi.2.shape, phi.2.at (coord i) ≤ ((k : ℝ) - 1) / 2) :
    wishartMomentsArr phi = .error .valueError := by
  have hm : ∀ p, matrixOf (npScaleBy (-1) phi.1) p [k] [k] = -matrixOf phi.1 p [k] [k] := fun p => by
    rw [matrixOf_scaleBy, neg_one_smul]
  obtain ⟨L, c1, cL⟩ := C76_chol (npScaleBy (-1) phi.1) P0 [k] h0 fun p hp => by rw [hm]; exact hpd p hp
  obtain ⟨Cov, c2, _, _⟩ := C76_inverse cL
  obtain ⟨c2s, c2v⟩ := inverse_on cL h0 c2 hP
  obtain ⟨ld, c3, _, _⟩ := C76_logdet cL
  obtain ⟨c3s, c3v⟩ := logdet_on cL h0 c3 hP
  have hk : axisLen phi.1.shape 0 = k := by rw [h0, axisLen_append]; simp [axisLen]
  obtain ⟨u0, d1, d1s, d1v⟩ := trail_mul2 c2s h1
  obtain ⟨u1, d2, d2s, d2v⟩ := sc_add (X := npScaleBy (-1) ld) (Y := npMap (fun x => multidigamma x k) phi.2) (P := P) c3s h1
  obtain ⟨pl, d3, d3s, d3v⟩ := sc_mul (P := P) h1 c3s
  have d4 : multigammalnArr phi.2 k = .error .valueError := by
    rw [multigammalnArr, if_neg]
    intro h
    obtain ⟨i, hi, hle⟩ := hn
    have := h i hi
    rw [Arr.at_of_valid _ (coord_valid hi)] at hle
    linarith
  simp only [List.length_singleton] at c1 c2 c3 d1
  unfold wishartMomentsArr
  simp only [hk, c1, c2, c3, d1, d2, d3, d4, bind, Except.bind]

/-- **C81** The matrices and numbers that `Wishart` computes are the expectations of `Λ` and `log |Λ|` under its density. -/
theorem C81_wishart_expectation {k : Nat} {p : List Nat} {phi u : Arr2} {g : Arr ℝ} (h : WishartOn k p phi u g)
    (hpd : (-matrixOf phi.1 p [k] [k]).PosDef) (hn : ((k : ℝ) - 1) / 2 < phi.2.at (coord p)) :
    (∀ i j, ∫ v in posDefCone (MultiIndex [k]), symMat v i j * Real.exp (entries (matrixOf phi.1 p [k] [k]) (symMat v)
      + phi.2.at (coord p) * Real.log (symMat v).det + g.at (coord p) - ((k : ℝ) + 1) / 2 * Real.log (symMat v).det)
        = matrixOf u.1 p [k] [k] i j) ∧
    ∫ v in posDefCone (MultiIndex [k]), Real.log (symMat v).det * Real.exp (entries (matrixOf phi.1 p [k] [k]) (symMat v)
      + phi.2.at (coord p) * Real.log (symMat v).det + g.at (coord p) - ((k : ℝ) + 1) / 2 * Real.log (symMat v).det)
        = u.2.at (coord p) := by
  have hcard : Fintype.card (MultiIndex [k]) = k := by
    rw [Fintype.card_congr (singleEquiv k), Fintype.card_fin]
  set ph : WIx (MultiIndex [k]) → ℝ := mkW (matrixOf phi.1 p [k] [k]) (phi.2.at (coord p)) with hph
  have hw0 : w0 ph = matrixOf phi.1 p [k] [k] := rfl
  have hw1 : w1 ph = phi.2.at (coord p) := rfl
  have hmg : multigammaln (phi.2.at (coord p)) k
      = (k : ℝ) * (k - 1) / 4 * Real.log Real.pi + ∑ j ∈ Finset.range k, Real.log (Real.Gamma (phi.2.at (coord p) - j / 2)) := by
    unfold multigammaln gammaln
    congr 1
    exact Finset.sum_congr rfl fun j _ => by rw [show (0.5 : ℝ) * j = j / 2 by ring]
  have hmd : multidigamma (phi.2.at (coord p)) k
      = ∑ j ∈ Finset.range k, deriv (fun x => Real.log (Real.Gamma x)) (phi.2.at (coord p) - j / 2) := by
    unfold multidigamma digamma gammaln
    exact Finset.sum_congr rfl fun j _ => by rw [show (0.5 : ℝ) * j = j / 2 by ring]
  have hlog : ∀ v, logpdf (wishartFixed (symMat v)) ph (wishartCgf ph) (wishartF (symMat v))
      = entries (matrixOf phi.1 p [k] [k]) (symMat v)
      + phi.2.at (coord p) * Real.log (symMat v).det + g.at (coord p) - ((k : ℝ) + 1) / 2 * Real.log (symMat v).det := fun v => by
    have hdot : ph ⬝ᵥ wishartFixed (symMat v) = entries (matrixOf phi.1 p [k] [k]) (symMat v)
        + phi.2.at (coord p) * Real.log (symMat v).det := by
      rw [dotProduct, Fintype.sum_sum_type, Fintype.sum_prod_type]
      simp [wishartFixed, mkW, hph, entries]
    rw [logpdf_eq, hdot, wishartCgf, wishartF, hcard, hw0, hw1, h.cgf, hmg]
    ring
  have hE := C22_wishart_expectation ph (by rw [hw0]; exact hpd) (by rw [hcard, hw1]; exact hn)
  refine ⟨fun i j => ?_, ?_⟩
  · have := hE (.inl (i, j))
    simp only [hlog] at this
    refine Eq.trans ?_ (this.trans ?_)
    · rfl
    · show (w1 ph • (-w0 ph)⁻¹) i j = _
      rw [hw0, hw1]
      have e : matrixOf u.1 p [k] [k] = phi.2.at (coord p) • (-matrixOf phi.1 p [k] [k])⁻¹ := by
        have := congrArg ((-matrixOf phi.1 p [k] [k])⁻¹ * ·) h.mean
        simp only [← Matrix.mul_assoc, nonsing_inv_mul _ hpd.det_pos.ne'.isUnit, Matrix.one_mul, mul_smul_comm, Matrix.mul_one] at this
        exact this
      rw [e]
  · have := hE (.inr ())
    simp only [hlog] at this
    refine Eq.trans ?_ (this.trans ?_)
    · rfl
    · show -Real.log (-w0 ph).det + multidigamma (w1 ph) (Fintype.card (MultiIndex [k])) = _
      rw [hcard, hw0, hw1, h.logdet, hmd]
      ring

/-- **C81** The moments of a fixed matrix of `Wishart`. -/
theorem C81_wishart_fixed {k : Nat} {L : Arr ℝ} (hL : L.shape = P0 ++ [k] ++ [k]) (hP : BroadcastsTo P0 P)
    (hpd : ∀ p ∈ indices P0, (matrixOf L p [k] [k]).PosDef) :
    ∃ ld f, wishartFixedArr L = .ok ((L, ld), f) ∧ BroadcastsTo ld.shape P ∧ BroadcastsTo f.shape P ∧ ∀ p ∈ indices P,
      ld.at (coord p) = Real.log (matrixOf L p [k] [k]).det ∧
      f.at (coord p) = -((k : ℝ) + 1) / 2 * Real.log (matrixOf L p [k] [k]).det := by
  obtain ⟨U, c1, cL⟩ := C76_chol L P0 [k] hL hpd
  obtain ⟨ld, c3, _, _⟩ := C76_logdet cL
  obtain ⟨c3s, c3v⟩ := logdet_on cL hL c3 hP
  have hk : axisLen L.shape 0 = k := by rw [hL, axisLen_append]; simp [axisLen]
  refine ⟨ld, npScaleBy (-((k : ℝ) + 1) / 2) ld, ?_, c3s, c3s, fun p hp => ⟨c3v p hp, ?_⟩⟩
  · simp only [List.length_singleton] at c1 c3
    unfold wishartFixedArr
    simp only [hk, c1, c3, bind, Except.bind, pure, Except.pure]
  · rw [scaleBy_at, c3v p hp]

/-- **C81** The moments of a fixed matrix over any axes and the derivative of `⟨d, u(Λ)⟩` with respect to `Λ`, on every plate. -/
theorem C81_wishart_gradient {L : Arr ℝ} {d : Arr2} (hL : L.shape = P0 ++ s ++ s) (hP : BroadcastsTo P0 P) (hd : ShapedW P s d)
    (hpd : ∀ p ∈ indices P0, (matrixOf L p s s).PosDef) :
    ∃ ld du, wishartGradArr s L d = .ok ((L, ld), du) ∧ BroadcastsTo ld.shape P ∧ PlatesDims du.shape P (s ++ s) ∧
      ∀ p ∈ indices P, ld.at (coord p) = Real.log (matrixOf L p s s).det ∧
        matrixOf L p s s * (matrixOf du p s s - matrixOf d.1 p s s) = d.2.at (coord p) • (1 : Matrix (MultiIndex s) (MultiIndex s) ℝ) := by
  obtain ⟨U, c1, cL⟩ := C76_chol L P0 s hL hpd
  obtain ⟨Cov, c2, _, _⟩ := C76_inverse cL
  obtain ⟨c2s, c2v⟩ := inverse_on cL hL c2 hP
  obtain ⟨ld, c3, _, _⟩ := C76_logdet cL
  obtain ⟨c3s, c3v⟩ := logdet_on cL hL c3 hP
  obtain ⟨du1, d1, d1s, d1v⟩ := trail_mul2 c2s hd.2
  obtain ⟨du, d2, d2s, d2v⟩ := po_add2 hd.1 d1s
  refine ⟨ld, du, ?_, c3s, d2s, fun p hp => ⟨c3v p hp, ?_⟩⟩
  · unfold wishartGradArr
    simp only [c1, c2, c3, d1, d2, bind, Except.bind, pure, Except.pure]
  · rw [d2v, d1v, add_sub_cancel_left, mul_smul_comm, c2v p hp]

/-! ## The converter and the wrappers -/

/-- **C81** `GaussianToGaussianGamma` adds a scale of one. -/
theorem C81_convert {u : Arr2} {m : Arr4} (hu : ShapedG P s u) :
    ∃ n, toGGMessage 0 m = .ok n ∧ ShapedGG P s (toGGMoments u) ∧
      ∀ p, pairGG s p m (toGGMoments u) = pairG s p n u + m.2.2.1.at (coord p) :=
  ⟨_, rfl, ⟨hu.1, hu.2, num_shape _ _, num_shape _ _⟩, fun p => by
    simp only [pairGG, pairG, toGGMoments, num_at]; ring⟩

/-- **C81** `WrapToGaussianGamma` multiplies the scale, on every plate and over any axes, and its messages are the coefficients of
the moments of each parent. -/
theorem C81_wrap_gamma {X m : Arr4} {a : Arr2} (hX : ShapedGG P s X) (ha : ShapedS P a) (hm : ShapedGG P s m) :
    ∃ u n0 n1, wrapGGMoments s X a = .ok u ∧ wrapGGMessage0 s m a = .ok n0 ∧ wrapGGMessage1 s m X = .ok n1 ∧
      ShapedGG P s u ∧ ShapedGG P s n0 ∧ ShapedS P n1 ∧ ∀ p ∈ indices P,
        vectorOf u.1 p s = a.1.at (coord p) • vectorOf X.1 p s ∧ matrixOf u.2.1 p s s = a.1.at (coord p) • matrixOf X.2.1 p s s ∧
        u.2.2.1.at (coord p) = a.1.at (coord p) * X.2.2.1.at (coord p) ∧
        u.2.2.2.at (coord p) = a.2.at (coord p) + X.2.2.2.at (coord p) ∧
        pairGG s p m u = pairGG s p n0 X + m.2.2.2.at (coord p) * a.2.at (coord p) ∧
        pairGG s p m u = pairS p n1 a + m.2.2.2.at (coord p) * X.2.2.2.at (coord p) := by
  obtain ⟨u0, a1, a1s, a1v⟩ := mul_trail hX.1 ha.1
  obtain ⟨u1, a2, a2s, a2v⟩ := mul_trail2 hX.2.1 ha.1
  obtain ⟨u2, a3, a3s, a3v⟩ := sc_mul (P := P) hX.2.2.1 ha.1
  obtain ⟨u3, a4, a4s, a4v⟩ := sc_add (P := P) hX.2.2.2 ha.2
  obtain ⟨m0, b1, b1s, b1v⟩ := mul_trail hm.1 ha.1
  obtain ⟨m1, b2, b2s, b2v⟩ := mul_trail2 hm.2.1 ha.1
  obtain ⟨m2, b3, b3s, b3v⟩ := sc_mul (P := P) hm.2.2.1 ha.1
  obtain ⟨i0, c1, c1s, c1v⟩ := po_inner hm.1 hX.1
  obtain ⟨i1, c2, c2s, c2v⟩ := po_entries hm.2.1 hX.2.1
  obtain ⟨i2, c3, c3s, c3v⟩ := sc_mul (P := P) hm.2.2.1 hX.2.2.1
  obtain ⟨t, c4, c4s, c4v⟩ := sc_add (P := P) c1s c2s
  obtain ⟨n0, c5, c5s, c5v⟩ := sc_add (P := P) c4s c3s
  refine ⟨(u0, u1, u2, u3), (m0, m1, m2, m.2.2.2), (n0, m.2.2.2), ?_, ?_, ?_, ⟨a1s, a2s, a3s, a4s⟩, ⟨b1s, b2s, b3s, hm.2.2.2⟩,
    ⟨c5s, hm.2.2.2⟩, fun p hp => ⟨a1v p, a2v p, ?_, ?_, ?_, ?_⟩⟩
  · unfold wrapGGMoments
    simp only [a1, a2, a3, a4, bind, Except.bind, pure, Except.pure]
  · unfold wrapGGMessage0
    simp only [b1, b2, b3, bind, Except.bind, pure, Except.pure]
  · unfold wrapGGMessage1
    simp only [c1, c2, c3, c4, c5, bind, Except.bind, pure, Except.pure]
  · show u2.at _ = _
    rw [a3v, mul_comm]
  · show u3.at _ = _
    rw [a4v, add_comm]
  · simp only [pairGG, a1v, a2v, a3v, a4v, b1v, b2v, b3v, smul_dotProduct, dotProduct_smul, entries_smul_left, entries_smul_right,
      smul_eq_mul]
    ring
  · simp only [pairGG, pairS, a1v, a2v, a3v, a4v, c5v, c4v, c3v, c1v p hp, c2v p hp, dotProduct_smul, entries_smul_right,
      smul_eq_mul]
    ring

/-- **C81** `WrapToGaussianWishart` of a Gaussian-gamma and a Wishart node: `Λx`, `xᵀΛx`, `Λ` and `log |Λ|` times the scale, on every
plate and over any axes; with symmetric matrices the messages are the coefficients of the moments of each parent. -/
theorem C81_wrap_wishart_partial {X m : Arr4} {L : Arr2} (hX : ShapedGG P s X) (hL : ShapedW P s L) (hm : ShapedGW P s m)
    (hsym : ∀ p ∈ indices P, (matrixOf L.1 p s s)ᵀ = matrixOf L.1 p s s) :
    ∃ u n0 n1, wrapGWMoments true s X L = .ok u ∧ wrapGWMessage0 true s m L = .ok n0 ∧ wrapGWMessage1 true s m X = .ok n1 ∧
      ShapedGW P s u ∧ ShapedGG P s n0 ∧ ShapedW P s n1 ∧ ∀ p ∈ indices P,
        vectorOf u.1 p s = matrixOf L.1 p s s *ᵥ vectorOf X.1 p s ∧
        u.2.1.at (coord p) = entries (matrixOf L.1 p s s) (matrixOf X.2.1 p s s) ∧
        matrixOf u.2.2.1 p s s = X.2.2.1.at (coord p) • matrixOf L.1 p s s ∧
        u.2.2.2.at (coord p) = L.2.at (coord p) + s.prod * X.2.2.2.at (coord p) ∧
        pairGW s p m u = pairGG s p n0 X + m.2.2.2.at (coord p) * L.2.at (coord p) ∧
        pairGW s p m u = pairW s p n1 L + m.2.2.2.at (coord p) * (s.prod * X.2.2.2.at (coord p)) := by
  obtain ⟨u0, a1, a1s, a1v⟩ := po_mvdot hL.1 hX.1 rfl
  obtain ⟨u1, a2, a2s, a2v⟩ := po_entries hL.1 hX.2.1
  obtain ⟨u2, a3, a3s, a3v⟩ := mul_trail2 hL.1 hX.2.2.1
  obtain ⟨u3, a4, a4s, a4v⟩ := sc_add (Y := npScaleBy (s.prod : ℝ) X.2.2.2) (P := P) hL.2 hX.2.2.2
  obtain ⟨m0, b1, b1s, b1v⟩ := po_mvdot hL.1 hm.1 rfl
  obtain ⟨m1, b2, b2s, b2v⟩ := mul_trail2 hL.1 hm.2.1
  obtain ⟨m2, b3, b3s, b3v⟩ := po_entries hL.1 hm.2.2.1
  obtain ⟨o1, c1, c1s, c1v⟩ := po_outer hX.1 hm.1 rfl
  obtain ⟨o2, c2, c2s, c2v⟩ := po_outer hm.1 hX.1 rfl
  obtain ⟨t, c3, c3s, c3v⟩ := po_add2 (X := npScaleBy 0.5 o1) (Y := npScaleBy 0.5 o2) (s := s) c1s c2s
  obtain ⟨t3, c4, c4s, c4v⟩ := mul_trail2 hX.2.1 hm.2.1
  obtain ⟨t4, c5, c5s, c5v⟩ := trail_mul2 hm.2.2.1 hX.2.2.1
  obtain ⟨t', c6, c6s, c6v⟩ := po_add2 c3s c4s
  obtain ⟨n0, c7, c7s, c7v⟩ := po_add2 c6s c5s
  refine ⟨(u0, u1, u2, u3), (m0, m1, m2, npScaleBy (s.prod : ℝ) m.2.2.2), (n0, m.2.2.2), ?_, ?_, ?_, ⟨a1s, a2s, a3s, a4s⟩,
    ⟨b1s, b2s, b3s, hm.2.2.2⟩, ⟨c7s, hm.2.2.2⟩, fun p hp => ⟨a1v p hp, a2v p hp, a3v p, a4v _, ?_, ?_⟩⟩
  · unfold wrapGWMoments
    simp only [Bool.not_true, Bool.false_eq_true, if_false, a1, a2, a3, a4, bind, Except.bind, pure, Except.pure]
  · unfold wrapGWMessage0
    simp [b1, b2, b3, bind, Except.bind, pure, Except.pure]
  · unfold wrapGWMessage1
    simp [c1, c2, c3, c4, c5, c6, c7, bind, Except.bind, pure, Except.pure]
  · have e : vectorOf m.1 p s ⬝ᵥ matrixOf L.1 p s s *ᵥ vectorOf X.1 p s = (matrixOf L.1 p s s *ᵥ vectorOf m.1 p s) ⬝ᵥ vectorOf X.1 p s := by
      rw [dotProduct_mulVec, ← mulVec_transpose, hsym p hp]
    simp only [pairGW, pairGG, a1v p hp, a2v p hp, a3v, a4v, b1v p hp, b2v, b3v p hp, scaleBy_at, entries_smul_left,
      entries_smul_right, e]
    rw [entries_comm (matrixOf m.2.2.1 p s s)]
    ring
  · have e : vectorOf X.1 p s ⬝ᵥ matrixOf L.1 p s s *ᵥ vectorOf m.1 p s = vectorOf m.1 p s ⬝ᵥ matrixOf L.1 p s s *ᵥ vectorOf X.1 p s := by
      rw [dotProduct_mulVec, ← mulVec_transpose, hsym p hp, dotProduct_comm]
    simp only [pairGW, pairW, a1v p hp, a2v p hp, a3v, a4v, c7v, c6v, c5v, c4v, c3v, c1v p hp, c2v p hp, scaleBy_at,
      matrixOf_scaleBy, entries_add_left, entries_smul_left, entries_smul_right, entries_outer, e]
    rw [entries_comm (matrixOf X.2.1 p s s)]
    ring

/-- **C81 fails for the third combination that the docstring of `WrapToGaussianWishart` lists**, Gaussian-Wishart and gamma: no
function is implemented. -/
theorem C81_wrap_wishart_refuted {X m : Arr4} {L : Arr2} : wrapGWMoments false s X L = .error .notImplemented ∧
    wrapGWMessage0 false s m L = .error .notImplemented ∧ wrapGWMessage1 false s m X = .error .notImplemented := ⟨rfl, rfl, rfl⟩

/-- **C81** A scaled Wishart node, on every plate and over any axes. -/
theorem C81_scaled {L a m : Arr2} (hL : ShapedW P s L) (ha : ShapedS P a) (hm : ShapedW P s m) :
    ∃ u n0 n1, scaledMomentsArr s L a = .ok u ∧ scaledMessage0 s m a = .ok n0 ∧ scaledMessage1 s m L = .ok n1 ∧
      ShapedW P s u ∧ ShapedW P s n0 ∧ ShapedS P n1 ∧ ∀ p ∈ indices P,
        matrixOf u.1 p s s = a.1.at (coord p) • matrixOf L.1 p s s ∧
        u.2.at (coord p) = L.2.at (coord p) + s.prod * a.2.at (coord p) ∧
        pairW s p m u = pairW s p n0 L + m.2.at (coord p) * (s.prod * a.2.at (coord p)) ∧
        pairW s p m u = pairS p n1 a + m.2.at (coord p) * L.2.at (coord p) := by
  obtain ⟨u0, a1, a1s, a1v⟩ := mul_trail2 hL.1 ha.1
  obtain ⟨u1, a2, a2s, a2v⟩ := sc_add (Y := npScaleBy (s.prod : ℝ) a.2) (P := P) hL.2 ha.2
  obtain ⟨m0, b1, b1s, b1v⟩ := mul_trail2 hm.1 ha.1
  obtain ⟨n0, c1, c1s, c1v⟩ := po_entries hm.1 hL.1
  refine ⟨(u0, u1), (m0, m.2), (n0, npScaleBy (s.prod : ℝ) m.2), ?_, ?_, ?_, ⟨a1s, a2s⟩, ⟨b1s, hm.2⟩, ⟨c1s, hm.2⟩,
    fun p hp => ⟨a1v p, a2v _, ?_, ?_⟩⟩
  · unfold scaledMomentsArr
    simp only [a1, a2, bind, Except.bind, pure, Except.pure]
  · unfold scaledMessage0
    simp only [b1, bind, Except.bind, pure, Except.pure]
  · unfold scaledMessage1
    simp only [c1, bind, Except.bind, pure, Except.pure]
  · simp only [pairW, a1v, a2v, b1v, scaleBy_at, entries_smul_left, entries_smul_right]
    ring
  · simp only [pairW, pairS, a1v, a2v, c1v p hp, scaleBy_at, entries_smul_right]
    ring

end

/-! ## Examples -/

/-- Gaussian-gamma parameters of a 2 × 2 variable on three plates, with the scalars shared by the plates -/
noncomputable def demoGG : Arr4 := (demoPhi0, demoPhi1, pyNum (-100), pyNum 2)

theorem demoGG_rate : ∀ p ∈ indices [3], vectorOf demoGG.1 p [2, 2] ⬝ᵥ ((-2 : ℝ) • matrixOf demoGG.2.1 p [2, 2] [2, 2])⁻¹ *ᵥ
    vectorOf demoGG.1 p [2, 2] < -2 * demoGG.2.2.1.at (coord p) := by
  intro p hp
  have hx : ∀ i : MultiIndex [2, 2], |vectorOf demoPhi0 p [2, 2] i| ≤ 4 := by
    rintro ⟨i, hi⟩
    have hi' : i ∈ indices [2, 2] := by simpa using hi
    have e : vectorOf demoPhi0 p [2, 2] ⟨i, hi⟩ = 1 + coord (p ++ i) 0 + 2 * coord (p ++ i) 1 := by
      show demoPhi0.at (coord (p ++ i)) = _
      rw [Arr.at_of_valid _ (coord_valid (by exact append_mem_indices hp hi'))]
      rfl
    have v := coord_valid (append_mem_indices hp hi' : p ++ i ∈ indices ([3] ++ [2, 2]))
    have v0 : coord (p ++ i) 0 ≤ 1 := Nat.lt_succ_iff.1 (v 0)
    have v1 : coord (p ++ i) 1 ≤ 1 := Nat.lt_succ_iff.1 (v 1)
    have w0 : (coord (p ++ i) 0 : ℝ) ≤ 1 := by exact_mod_cast v0
    have w1 : (coord (p ++ i) 1 : ℝ) ≤ 1 := by exact_mod_cast v1
    rw [e, abs_of_nonneg (by positivity)]
    linarith
  have hm : ((-2 : ℝ) • matrixOf demoGG.2.1 p [2, 2] [2, 2])⁻¹ = (2 + (p.headD 0 : ℕ) : ℝ)⁻¹ • 1 := by
    have e : (-2 : ℝ) • matrixOf demoGG.2.1 p [2, 2] [2, 2] = (2 + (p.headD 0 : ℕ) : ℝ) • 1 := demoPhi1_matrix hp
    rw [e]
    refine inv_eq_right_inv ?_
    rw [smul_mul_smul_comm, mul_one, mul_inv_cancel₀ (by positivity), one_smul]
  have e2 : demoGG.2.2.1.at (coord p) = -100 := rfl
  rw [hm, smul_mulVec, one_mulVec, dotProduct_smul, smul_eq_mul, e2]
  have hdot : vectorOf demoGG.1 p [2, 2] ⬝ᵥ vectorOf demoGG.1 p [2, 2] ≤ 64 := by
    refine (Finset.sum_le_card_nsmul _ _ 16 fun i _ => ?_).trans ?_
    · have := hx i
      have h2 := abs_mul_abs_self (vectorOf demoPhi0 p [2, 2] i)
      show vectorOf demoPhi0 p [2, 2] i * vectorOf demoPhi0 p [2, 2] i ≤ 16
      nlinarith [abs_nonneg (vectorOf demoPhi0 p [2, 2] i)]
    · have : Fintype.card (MultiIndex [2, 2]) = 4 := by decide
      rw [Finset.card_univ, this]
      norm_num
  have h1 : (2 + (p.headD 0 : ℕ) : ℝ)⁻¹ ≤ 1 := inv_le_one_of_one_le₀ (by
    have : (0 : ℝ) ≤ (p.headD 0 : ℕ) := by positivity
    linarith)
  have h0 : 0 ≤ (2 + (p.headD 0 : ℕ) : ℝ)⁻¹ := by positivity
  nlinarith

example : ∃ u g, ggMomentsArr [2, 2] demoGG = .ok (u, g) ∧ ∃ m b, 0 < b ∧ GaussianGammaOn [2, 2] [1] demoGG u g m b := by
  obtain ⟨u, g, h1, _, _, h2⟩ := C81_gaussian_gamma_moments (P := [3]) (P0 := [3]) (P1 := [3]) (Q := [3]) (s := [2, 2]) (phi := demoGG)
    rfl rfl (num_shape _ _) (num_shape _ _) demoPhi1_posDef (isBroadcast_self [3]) (BroadcastsTo_refl _) (fun _ => demo_sub) demoGG_rate
  exact ⟨u, g, h1, h2 [1] (by decide)⟩

/-- the number of elements of a 2 × 2 value is four -/
example : ∃ u f, ggFixedArr [2, 2] demoPhi0 (pyNum 1) = .ok (u, f) ∧ f.at (coord [1]) = -2 * Real.log (2 * Real.pi) := by
  obtain ⟨u, f, h1, _, _, h2⟩ := C81_gaussian_gamma_fixed (P := [3]) (s := [2, 2]) (x := demoPhi0) (alpha := pyNum 1)
    ⟨[3], rfl, BroadcastsTo_refl _⟩ (num_shape _ _)
  refine ⟨u, f, h1, ?_⟩
  rw [(h2 [1] (by decide)).2.2.2.2, num_at]
  norm_num

/-- Wishart parameters of 2 × 2 matrices: `-1` on each of three plates, one number for all -/
noncomputable def demoW : Arr2 := (⟨[3, 2, 2], fun c => if c 0 = c 1 then -1 else 0⟩, pyNum 2)

theorem demoW_matrix {p : List Nat} (hp : p ∈ indices [3]) : -matrixOf demoW.1 p [2] [2] = 1 := by
  ext i j
  have hi := multi_mem i
  have hj := multi_mem j
  show -demoW.1.at (coord (p ++ i.1 ++ j.1)) = _
  rw [Arr.at_of_valid _ (coord_valid (append_mem_indices (append_mem_indices hp hi) hj))]
  have e0 : coord (p ++ i.1 ++ j.1) 0 = coord j.1 0 := by
    rw [coord_joinC, joinC_lt _ _ (by rw [length_of_mem_indices hj]; simp)]
  have e1 : coord (p ++ i.1 ++ j.1) 1 = coord i.1 0 := by
    rw [coord_joinC, joinC_ge _ _ (by rw [length_of_mem_indices hj]; simp), length_of_mem_indices hj, coord_joinC,
      joinC_lt _ _ (by rw [length_of_mem_indices hi]; simp)]
    rfl
  show -(if coord (p ++ i.1 ++ j.1) 0 = coord (p ++ i.1 ++ j.1) 1 then (-1 : ℝ) else 0) = _
  rw [e0, e1]
  have key : ∀ i j : MultiIndex [2], (coord j.1 0 = coord i.1 0) ↔ i = j := by decide
  rw [one_apply]
  by_cases h : i = j
  · rw [if_pos ((key i j).2 h), if_pos h]; norm_num
  · rw [if_neg (fun h' => h ((key i j).1 h')), if_neg h]; norm_num

theorem demoW_posDef : ∀ p ∈ indices [3], (-matrixOf demoW.1 p [2] [2]).PosDef := fun p hp => by
  rw [demoW_matrix hp]; exact PosDef.one

/-- the mean is twice the identity, and it is the expectation under the density -/
example : ∃ u g, wishartMomentsArr demoW = .ok (u, g) ∧ matrixOf u.1 [1] [2] [2] = (2 : ℝ) • 1 ∧
    ∀ i j, ∫ v in posDefCone (MultiIndex [2]), symMat v i j * Real.exp (entries (matrixOf demoW.1 [1] [2] [2]) (symMat v)
      + demoW.2.at (coord [1]) * Real.log (symMat v).det + g.at (coord [1]) - (((2 : ℕ) : ℝ) + 1) / 2 * Real.log (symMat v).det)
        = matrixOf u.1 [1] [2] [2] i j := by
  have hp : [1] ∈ indices [3] := by decide
  obtain ⟨u, g, h1, _, _, h2⟩ := C81_wishart_moments (P := [3]) (P0 := [3]) (k := 2) (phi := demoW) rfl (BroadcastsTo_refl _)
    (num_shape _ _) demoW_posDef (fun i _ => by
      have e : demoW.2.at (coord i) = 2 := rfl
      rw [e]; norm_num)
  have h := h2 [1] hp
  refine ⟨u, g, h1, ?_, (C81_wishart_expectation h (demoW_posDef _ hp) ?_).1⟩
  · have := h.mean
    rw [demoW_matrix hp, Matrix.one_mul] at this
    exact this
  · have e : demoW.2.at (coord [1]) = 2 := rfl
    rw [e]; norm_num

example : wishartMomentsArr (demoW.1, pyNum 0.5) = .error .valueError :=
  C81_wishart_moments_raises (P := [3]) (P0 := [3]) (k := 2) rfl (BroadcastsTo_refl _) (num_shape _ _) demoW_posDef
    ⟨[], by decide, by
      have e : (pyNum 0.5).at (coord []) = 0.5 := rfl
      rw [e]; norm_num⟩

/-- the precision of a 2 × 2 variable on three plates -/
noncomputable def demoL : Arr2 := (demoA, pyNum 1)

theorem demoL_shaped : ShapedW [3] [2, 2] demoL := ⟨⟨[3], rfl, BroadcastsTo_refl _⟩, num_shape _ _⟩

noncomputable def demoX : Arr4 := (demoPhi0, demoA, pyNum 2, pyNum 1)

theorem demoX_shaped : ShapedGG [3] [2, 2] demoX :=
  ⟨⟨[3], rfl, BroadcastsTo_refl _⟩, ⟨[3], rfl, BroadcastsTo_refl _⟩, num_shape _ _, num_shape _ _⟩

noncomputable def demoM : Arr4 := (demoPhi0, pyNum 2, demoA, pyNum 1)

theorem demoM_shaped : ShapedGW [3] [2, 2] demoM :=
  ⟨⟨[3], rfl, BroadcastsTo_refl _⟩, num_shape _ _, ⟨[3], rfl, BroadcastsTo_refl _⟩, num_shape _ _⟩

theorem demoA_symm : ∀ p ∈ indices [3], (matrixOf demoL.1 p [2, 2] [2, 2])ᵀ = matrixOf demoL.1 p [2, 2] [2, 2] := fun p hp => by
  have e : matrixOf demoL.1 p [2, 2] [2, 2] = (2 + (p.headD 0 : ℕ) : ℝ) • 1 := demoA_matrix hp
  rw [e, transpose_smul, transpose_one]

example : ∃ u, wrapGWMoments true [2, 2] demoX demoL = .ok u ∧ u.2.2.2.at (coord [1]) = 5 := by
  obtain ⟨u, n0, n1, h1, _, _, _, _, _, h2⟩ := C81_wrap_wishart_partial demoX_shaped demoL_shaped demoM_shaped demoA_symm
  refine ⟨u, h1, ?_⟩
  rw [(h2 [1] (by decide)).2.2.2.1]
  show (1 : ℝ) + (([2, 2] : List Nat).prod : ℕ) * 1 = 5
  norm_num

example : ∃ u, wrapGGMoments [2, 2] demoX (pyNum 3, pyNum 1) = .ok u ∧ u.2.2.1.at (coord [1]) = 6 := by
  obtain ⟨u, n0, n1, h1, _, _, _, _, _, h2⟩ := C81_wrap_gamma (a := (pyNum 3, pyNum 1)) (m := demoX) demoX_shaped
    ⟨num_shape _ _, num_shape _ _⟩ demoX_shaped
  refine ⟨u, h1, ?_⟩
  rw [(h2 [1] (by decide)).2.2.1]
  show (3 : ℝ) * 2 = 6
  norm_num

example : ∃ u, scaledMomentsArr [2, 2] demoL (pyNum 3, pyNum 1) = .ok u ∧ u.2.at (coord [1]) = 5 := by
  obtain ⟨u, n0, n1, h1, _, _, _, _, _, h2⟩ := C81_scaled (m := demoL) (a := (pyNum 3, pyNum 1)) demoL_shaped
    ⟨num_shape _ _, num_shape _ _⟩ demoL_shaped
  refine ⟨u, h1, ?_⟩
  rw [(h2 [1] (by decide)).2.1]
  show (1 : ℝ) + (([2, 2] : List Nat).prod : ℕ) * 1 = 5
  norm_num

example : ∃ phi, ggPhiArr demoM (pyNum 2, pyNum 0) (pyNum 3, pyNum 1) = .ok phi ∧ ShapedGG [3] [2, 2] phi := by
  obtain ⟨phi, g, m1, h1, _, _, h2, _⟩ := C81_gaussian_gamma (a := (pyNum 2, pyNum 0)) (b := (pyNum 3, pyNum 1)) demoX_shaped
    demoM_shaped ⟨num_shape _ _, num_shape _ _⟩ ⟨num_shape _ _, num_shape _ _⟩
  exact ⟨phi, h1, h2⟩

example : ∃ m g, gaussianMessageArr 0 (demoPhi0, demoA) = .ok m ∧ gaussianCgfArr demoM = .ok g ∧ g.at (coord [1]) = -0.5 := by
  obtain ⟨m, g, h1, h2, _, h3⟩ := C81_gaussian (u := (demoPhi0, demoA)) demoM_shaped
  refine ⟨m, g, h1, h2, ?_⟩
  obtain ⟨e1, e2⟩ := h3 [1]
  have := e2
  simp only [pairG, gaussianLog, gaussianPhiArr, matrixOf_scaleBy, entries_smul_left] at this
  rw [dotProduct_comm, entries_comm] at this
  have x1 : demoM.2.1.at (coord [1]) = 2 := rfl
  have x2 : demoM.2.2.2.at (coord [1]) = 1 := rfl
  rw [x1, x2] at this
  linarith

example : ∃ m g, wishartMessageArr 1 demoW (pyNum 4, pyNum 1) = .ok m ∧ wishartCgfArr (pyNum 4, pyNum 1) demoW = .ok g := by
  obtain ⟨m, g, h1, h2, _⟩ := C81_wishart (P := [3]) (k := 2) (u := demoW) (n := (pyNum 4, pyNum 1)) (V := demoW)
    ⟨num_shape _ _, num_shape _ _⟩ ⟨⟨[3], rfl, BroadcastsTo_refl _⟩, num_shape _ _⟩ ⟨⟨[3], rfl, BroadcastsTo_refl _⟩, num_shape _ _⟩
  exact ⟨m, g, h1, h2⟩

theorem demoA_posDef' : ∀ p ∈ indices [3], (matrixOf demoA p [2, 2] [2, 2]).PosDef := fun p hp => by
  rw [demoA_matrix hp]; exact PosDef.one.smul (by positivity)

example : ∃ ld du, wishartGradArr [2, 2] demoA demoL = .ok ((demoA, ld), du) := by
  obtain ⟨ld, du, h, _⟩ := C81_wishart_gradient (P := [3]) (P0 := [3]) (s := [2, 2]) (L := demoA) (d := demoL) rfl (BroadcastsTo_refl _)
    demoL_shaped demoA_posDef'
  exact ⟨ld, du, h⟩

example : ∃ ld f, wishartFixedArr (npScaleBy (-1) demoW.1) = .ok ((npScaleBy (-1) demoW.1, ld), f) := by
  obtain ⟨ld, f, h, _⟩ := C81_wishart_fixed (P := [3]) (P0 := [3]) (k := 2) (L := npScaleBy (-1) demoW.1) rfl (BroadcastsTo_refl _)
    (fun p hp => by rw [matrixOf_scaleBy, neg_one_smul]; exact demoW_posDef p hp)
  exact ⟨ld, f, h⟩

example : ∃ n, toGGMessage 0 demoX = .ok n ∧ ∀ p, pairGG [2, 2] p demoX (toGGMoments (demoPhi0, demoA)) = pairG [2, 2] p n (demoPhi0, demoA) + 2 := by
  obtain ⟨n, h1, _, h2⟩ := C81_convert (P := [3]) (s := [2, 2]) (u := (demoPhi0, demoA)) (m := demoX)
    ⟨⟨[3], rfl, BroadcastsTo_refl _⟩, ⟨[3], rfl, BroadcastsTo_refl _⟩⟩
  exact ⟨n, h1, fun p => (h2 p).trans rfl⟩

end Verif
