import Verif.Model.CountArrays
import Verif.Props.GammaArrays
import Verif.Props.NodeBound
import Verif.Props.MultinomialGradient

/-!
# C84: the formulas of gamma, Poisson, binomial, Dirichlet and multinomial nodes on arrays
-/

namespace Verif
open Spec

section
variable {P : List Nat} {k : Nat}

/-! ## The last axis -/

theorem trail1_at {α : Type _} (Y : Arr α) (p : List Nat) (t : Nat) : (addTrailingAxes Y 1).at (coord (p ++ [t])) = Y.at (coord p) := by
  rw [addTrailingAxes_at]
  congr 1
  funext m
  rw [coord_joinC]
  show joinC 1 _ _ (m + 1) = _
  rw [joinC_ge _ _ (by omega), Nat.add_sub_cancel]

theorem trail1_shape {α : Type _} {Y : Arr α} (hY : BroadcastsTo Y.shape P) : BroadcastsTo (addTrailingAxes Y 1).shape (P ++ [k]) :=
  trailing_shape (X := ⟨Y.shape, fun _ => 0⟩) (s := [k]) hY rfl

theorem last_at {α : Type _} {X : Arr α} {S : List Nat} (hX : X.shape = S ++ [k]) (p : List Nat) {t : Nat} (ht : t < k) :
    X.get (atLast (restrict S (coord p)) t) = X.at (coord (p ++ [t])) := by
  show _ = X.get _
  congr 1
  funext m
  rw [hX]
  show _ = if axisLen (S ++ [k]) m = 1 then 0 else coord (p ++ [t]) m
  rw [axisLen_append, coord_joinC]
  rcases m with _ | m
  · show t = if axisLen [k] 0 = 1 then 0 else coord [t] 0
    by_cases h : k = 1
    · rw [if_pos (by simpa [axisLen] using h)]; omega
    · rw [if_neg (by simpa [axisLen] using h)]; simp [coord]
  · show restrict S (coord p) m = if axisLen S (m + 1 - 1) = 1 then 0 else joinC 1 _ _ (m + 1)
    rw [joinC_ge _ _ (by omega), Nat.add_sub_cancel]
    rfl

theorem lastAxis_at {α : Type _} {X : Arr α} {S : List Nat} (hX : X.shape = S ++ [k]) (p : List Nat) :
    X.lastAxis (restrict S (coord p)) = (List.range k).map fun t => X.at (coord (p ++ [t])) := by
  unfold Arr.lastAxis
  have e : axisLen X.shape 0 = k := by rw [hX, axisLen_append]; simp [axisLen]
  rw [e]
  exact List.map_congr_left fun t ht => last_at hX p (List.mem_range.1 ht)

theorem reduce_ok {α β : Type _} (r : List α → β) {X : Arr α} (hX : PlatesDims X.shape P [k]) :
    ∃ y, reduceLast r X = .ok y ∧ BroadcastsTo y.shape P ∧ ∀ p, y.at (coord p) = r ((List.range k).map fun t => X.at (coord (p ++ [t]))) := by
  obtain ⟨S, hS, hP⟩ := hX
  have e : X.shape.dropLast = S := by rw [hS]; simp
  refine ⟨⟨X.shape.dropLast, fun c => r (X.lastAxis c)⟩, by rw [reduceLast, if_neg (by rw [hS]; simp)], ?_, fun p => ?_⟩
  · show BroadcastsTo X.shape.dropLast P
    rw [e]; exact hP
  · show r (X.lastAxis (restrict X.shape.dropLast (coord p))) = _
    rw [e, lastAxis_at hS]

theorem keep_ok {α β : Type _} (r : List α → β) {X : Arr α} (hX : PlatesDims X.shape P [k]) :
    ∃ y, reduceKeep r X = .ok (addTrailingAxes y 1) ∧ BroadcastsTo y.shape P ∧
      ∀ p, y.at (coord p) = r ((List.range k).map fun t => X.at (coord (p ++ [t]))) := by
  obtain ⟨y, h1, h2, h3⟩ := reduce_ok r hX
  exact ⟨y, by rw [reduceKeep, h1]; rfl, h2, h3⟩

theorem take_ok {α : Type _} {X : Arr α} (hX : PlatesDims X.shape P [k]) {t : Nat} (ht : t < k) :
    ∃ y, takeLast X t = .ok y ∧ BroadcastsTo y.shape P ∧ ∀ p, y.at (coord p) = X.at (coord (p ++ [t])) := by
  obtain ⟨S, hS, hP⟩ := hX
  have e : X.shape.dropLast = S := by rw [hS]; simp
  have e' : axisLen X.shape 0 = k := by rw [hS, axisLen_append]; simp [axisLen]
  refine ⟨⟨X.shape.dropLast, fun c => X.get (atLast c t)⟩, by rw [takeLast, if_neg (by rw [e', hS]; simp; omega)], ?_, fun p => ?_⟩
  · show BroadcastsTo X.shape.dropLast P
    rw [e]; exact hP
  · show X.get (atLast (restrict X.shape.dropLast (coord p)) t) = _
    rw [e, last_at hS p ht]

theorem range_sum (f : Nat → ℝ) (k : Nat) : ((List.range k).map f).sum = ∑ t ∈ Finset.range k, f t := by
  induction k with
  | zero => simp
  | succ k ih => rw [List.range_succ, List.map_append, List.sum_append, ih, Finset.sum_range_succ]; simp

theorem sc_div {X Y : Arr ℝ} (hX : BroadcastsTo X.shape P) (hY : BroadcastsTo Y.shape P) :
    ∃ r, npDiv X Y = .ok r ∧ BroadcastsTo r.shape P ∧ ∀ c, r.at c = X.at c / Y.at c := by
  obtain ⟨r, h1, _, h2, h3⟩ := npDiv_common hX hY
  exact ⟨r, h1, h2, h3⟩

theorem plate_of_index {α : Type _} {X : Arr α} (hX : BroadcastsTo X.shape P) {p : List Nat} (hp : p ∈ indices P) :
    ∃ i ∈ indices X.shape, X.at (coord p) = X.at (coord i) := by
  obtain ⟨q, hq, e⟩ := exists_restrict hX.2 hp
  refine ⟨q, hq, ?_⟩
  show X.get _ = X.get _
  rw [e]
  congr 1
  funext m
  unfold restrict
  split <;> rfl

/-! ## Gamma -/

/-- **C84** The natural parameters and the cumulant function, and each message, paired with the moments, give the expected log density up
to terms without these moments, on every plate. -/
theorem C84_gamma {u a b : Arr2} (hu : ShapedS P u) (ha : ShapedS P a) (hb : ShapedS P b) :
    ∃ m0 m1 g, gammaMessageArr 0 u a b = .ok m0 ∧ gammaMessageArr 1 u a b = .ok m1 ∧ gammaCgfArr a b = .ok g ∧ ShapedS P m0 ∧
      ShapedS P m1 ∧ ShapedS P (gammaPhiArr a b) ∧ BroadcastsTo g.shape P ∧
      ∀ p, pairS p (gammaPhiArr a b) u + g.at (coord p) = gammaLog p u a b ∧
        pairS p m0 a - b.1.at (coord p) * u.1.at (coord p) = gammaLog p u a b ∧
        pairS p m1 b + (a.1.at (coord p) * u.2.at (coord p) - a.2.at (coord p)) = gammaLog p u a b := by
  obtain ⟨m, a1, a2, a3⟩ := sc_add hu.2 hb.2
  obtain ⟨n, b1, b2, b3⟩ := sc_mul ha.1 hb.2
  obtain ⟨g, c1, c2, c3⟩ := sc_sub b2 ha.2
  refine ⟨(m, pyNum (-1)), _, g, ?_, rfl, ?_, ⟨a2, num_shape _ _⟩, ⟨hu.1, ha.1⟩, ⟨hb.1, ha.1⟩, c2, fun p => ⟨?_, ?_, ?_⟩⟩
  · simp only [gammaMessageArr, if_true, a1, bind, Except.bind, pure, Except.pure]
  · simp only [gammaCgfArr, b1, c1, bind, Except.bind]
  · simp only [pairS, gammaPhiArr, gammaLog, scaleBy_at, b3, c3]
    ring
  · simp only [pairS, gammaLog, a3, num_at]
    ring
  · simp only [pairS, gammaLog, scaleBy_at]
    ring

theorem C84_gamma_raises {u a b : Arr2} {i : Nat} (hi : 2 ≤ i) : gammaMessageArr i u a b = .error .valueError := by
  rw [gammaMessageArr, if_neg (by omega), if_neg (by omega)]

/-- **C84** The moments and the cumulant function are those of the gamma distribution on every plate. -/
theorem C84_gamma_moments {phi : Arr2} (h : ShapedS P phi) (hneg : ∀ i ∈ indices phi.1.shape, phi.1.at (coord i) < 0) :
    ∃ u g, gammaMomentsArr phi = .ok (u, g) ∧ ShapedS P u ∧ BroadcastsTo g.shape P ∧ ∀ p ∈ indices P, GammaOn p phi u g := by
  obtain ⟨u0, a1, a2, a3⟩ := sc_div (X := phi.2) (Y := npScaleBy (-1) phi.1) h.2 h.1
  obtain ⟨u1, b1, b2, b3⟩ := sc_sub (X := npMap digamma phi.2) (Y := npMap Real.log (npScaleBy (-1) phi.1)) (P := P) h.2 h.1
  obtain ⟨n, c1, c2, c3⟩ := sc_mul (X := phi.2) (Y := npMap Real.log (npScaleBy (-1) phi.1)) (P := P) h.2 h.1
  obtain ⟨g, d1, d2, d3⟩ := sc_sub (X := n) (Y := npMap gammaln phi.2) (P := P) c2 h.2
  refine ⟨(u0, u1), g, ?_, ⟨a2, b2⟩, d2, fun p hp => ?_⟩
  · unfold gammaMomentsArr
    rw [if_neg (by
      rintro ⟨i, hi, h'⟩
      exact h' (by have := hneg i hi; linarith))]
    simp only [a1, b1, c1, d1, bind, Except.bind, pure, Except.pure]
  · obtain ⟨i, hi, e⟩ := plate_of_index h.1 hp
    have hn := hneg i hi
    rw [← e] at hn
    refine ⟨?_, ?_, ?_⟩
    · show u0.at _ * _ = _
      rw [a3, scaleBy_at, neg_one_mul, div_mul_cancel₀ _ (ne_of_gt (by linarith))]
    · show u1.at _ = _
      rw [b3, map_at, map_at, scaleBy_at, neg_one_mul]
      rfl
    · rw [d3, c3, map_at, map_at, scaleBy_at, neg_one_mul]
      rfl

/-- **C84** A rate that is not positive raises. -/
theorem C84_gamma_moments_raises {phi : Arr2} (h : ∃ i ∈ indices phi.1.shape, 0 ≤ phi.1.at (coord i)) :
    gammaMomentsArr phi = .error .exception := by
  obtain ⟨i, hi, h⟩ := h
  unfold gammaMomentsArr
  rw [if_pos ⟨i, hi, by linarith⟩]

/-- **C84** `compute_gradient` gives, on every plate, the derivative of `g₀ ⟨x⟩ + g₁ ⟨log x⟩` with respect to the natural parameters,
if `tri` is the derivative of `ψ`. -/
theorem C84_gamma_gradient {tri : ℝ → ℝ} {g phi : Arr2} (hg : ShapedS P g) (h : ShapedS P phi) :
    ∃ d, gammaGradientArr tri g phi = .ok d ∧ ShapedS P d ∧ ∀ p, phi.1.at (coord p) < 0 →
      HasDerivAt psi (tri (phi.2.at (coord p))) (phi.2.at (coord p)) →
      HasDerivAt (fun x => g.1.at (coord p) * (phi.2.at (coord p) / -x) + g.2.at (coord p) * (psi (phi.2.at (coord p)) - Real.log (-x)))
        (d.1.at (coord p)) (phi.1.at (coord p)) ∧
      HasDerivAt (fun y => g.1.at (coord p) * (y / -phi.1.at (coord p)) + g.2.at (coord p) * (psi y - Real.log (-phi.1.at (coord p))))
        (d.2.at (coord p)) (phi.2.at (coord p)) := by
  obtain ⟨n, a1, a2, a3⟩ := sc_mul hg.1 h.2
  obtain ⟨q, b1, b2, b3⟩ := sc_div (Y := npMap (· ^ 2) phi.1) (P := P) a2 h.1
  obtain ⟨q2, c1, c2, c3⟩ := sc_div hg.2 h.1
  obtain ⟨d0, d1, d2, d3⟩ := sc_sub b2 c2
  obtain ⟨n2, e1, e2, e3⟩ := sc_mul (Y := npMap tri phi.2) (P := P) hg.2 h.2
  obtain ⟨q3, f1, f2, f3⟩ := sc_div hg.1 h.1
  obtain ⟨d0', g1, g2, g3⟩ := sc_sub e2 f2
  refine ⟨(d0, d0'), ?_, ⟨d2, g2⟩, fun p hneg htri => ⟨?_, ?_⟩⟩
  · unfold gammaGradientArr
    simp only [a1, b1, c1, d1, e1, f1, g1, bind, Except.bind, pure, Except.pure]
  · show HasDerivAt _ (d0.at _) _
    have hne : phi.1.at (coord p) ≠ 0 := hneg.ne
    have h1 := ((hasDerivAt_id (phi.1.at (coord p))).neg.fun_inv (neg_ne_zero.2 hne)).const_mul (phi.2.at (coord p))
    have h2 := (Real.hasDerivAt_log (neg_ne_zero.2 hne)).comp _ (hasDerivAt_neg (phi.1.at (coord p)))
    have h3 := (h1.const_mul (g.1.at (coord p))).add ((h2.const_sub (psi (phi.2.at (coord p)))).const_mul (g.2.at (coord p)))
    refine h3.congr_deriv ?_
    rw [d3, b3, a3, c3, map_at]
    simp only [id, Pi.neg_apply]
    field_simp
    ring
  · show HasDerivAt _ (d0'.at _) _
    have hne : phi.1.at (coord p) ≠ 0 := hneg.ne
    have h1 := (hasDerivAt_id (phi.2.at (coord p))).div_const (-phi.1.at (coord p))
    have h3 := (h1.const_mul (g.1.at (coord p))).add ((htri.sub_const (Real.log (-phi.1.at (coord p)))).const_mul (g.2.at (coord p)))
    refine h3.congr_deriv ?_
    rw [g3, e3, f3, map_at]
    field_simp
    ring

/-! ## Poisson -/

/-- **C84** -/
theorem C84_poisson {x : Arr ℝ} {l : Arr2} : ∃ m, poissonMessageArr 0 x = .ok m ∧
    ∀ p, x.at (coord p) * (poissonPhiArr l).at (coord p) + (poissonCgfArr l).at (coord p) = poissonLog p x l ∧
      pairS p m l = poissonLog p x l := by
  refine ⟨_, rfl, fun p => ⟨?_, ?_⟩⟩
  · simp only [poissonPhiArr, poissonCgfArr, scaleBy_at, poissonLog]; ring
  · simp only [pairS, num_at, poissonLog]; ring

theorem C84_poisson_raises {x : Arr ℝ} {i : Nat} (hi : i ≠ 0) : poissonMessageArr i x = .error .valueError := by
  rw [poissonMessageArr, if_neg hi]

theorem C84_poisson_moments (phi : Arr ℝ) : (poissonMomentsArr phi).1.shape = phi.shape ∧ (poissonMomentsArr phi).2.shape = phi.shape ∧
    ∀ p, (poissonMomentsArr phi).1.at (coord p) = Real.exp (phi.at (coord p)) ∧
      (poissonMomentsArr phi).2.at (coord p) = -Real.exp (phi.at (coord p)) := by
  refine ⟨rfl, rfl, fun p => ⟨rfl, ?_⟩⟩
  show (npScaleBy (-1) (npMap Real.exp phi)).at _ = _
  rw [scaleBy_at, map_at, neg_one_mul]

/-! ## Binomial -/

theorem pair_shape (a b : ℝ) (P : List Nat) : BroadcastsTo (pairArr a b).shape (P ++ [2]) :=
  PlatesDims.broadcastsTo ⟨[], rfl, ⟨Nat.zero_le _, fun k => .inl (by simp [axisLen])⟩⟩

theorem pair_at (a b : ℝ) (p : List Nat) : (pairArr a b).at (coord (p ++ [0])) = a ∧ (pairArr a b).at (coord (p ++ [1])) = b := by
  constructor <;> simp [Arr.at, pairArr, restrict, axisLen, coord]

/-- **C84** -/
theorem C84_binomial {N : Arr Int} {x q : Arr ℝ} (hN : BroadcastsTo N.shape P) (hx : BroadcastsTo x.shape P)
    (hq : PlatesDims q.shape P [2]) : ∃ m phi g, binomialMessageArr 0 N x = .ok m ∧ binomialPhiArr q = .ok phi ∧
      binomialCgfArr N q = .ok g ∧ PlatesDims m.shape P [2] ∧ BroadcastsTo phi.shape P ∧ BroadcastsTo g.shape P ∧
      ∀ p, x.at (coord p) * phi.at (coord p) + g.at (coord p) = binomialLog p (trialsReal N) x q ∧
        pairL 2 p m q = binomialLog p (trialsReal N) x q := by
  have hN' : BroadcastsTo (trialsReal N).shape P := hN
  have d2 : ∀ a b, PlatesDims (pairArr a b).shape P [2] := fun a b => ⟨[], rfl, ⟨Nat.zero_le _, fun k => .inl (by simp [axisLen])⟩⟩
  obtain ⟨a, a1, a0, a2, a3⟩ := npMul_common (trail1_shape (k := 2) hx) (pair_shape 1 (-1) P)
  obtain ⟨b, b1, b0, b2, b3⟩ := npMul_common (trail1_shape (k := 2) hN') (pair_shape 0 1 P)
  obtain ⟨m, c1, c2, c3⟩ := po_add (platesDims_of_isBroadcast a0 a2 (by simp) (d2 1 (-1)))
    (platesDims_of_isBroadcast b0 b2 (by simp) (d2 0 1))
  obtain ⟨q0, d1, d2, d3⟩ := take_ok hq (t := 0) (by omega)
  obtain ⟨q1, e1, e2, e3⟩ := take_ok hq (t := 1) (by omega)
  obtain ⟨phi, f1, f2, f3⟩ := sc_sub d2 e2
  obtain ⟨g, g1, g2, g3⟩ := sc_mul hN' e2
  refine ⟨m, phi, g, ?_, ?_, ?_, c2, f2, g2, fun p => ⟨?_, ?_⟩⟩
  · simp only [binomialMessageArr, if_true, a1, b1, c1, bind, Except.bind]
  · simp only [binomialPhiArr, d1, e1, f1, bind, Except.bind]
  · simp only [binomialCgfArr, d1, e1, g1, bind, Except.bind]
  · rw [f3, g3, d3, e3, binomialLog]
    ring
  · rw [pairL, Finset.sum_range_succ, Finset.sum_range_one, c3, c3, a3, a3, b3, b3, trail1_at, trail1_at, trail1_at, trail1_at,
      (pair_at _ _ p).1, (pair_at _ _ p).1, (pair_at _ _ p).2, (pair_at _ _ p).2, binomialLog]
    ring

theorem C84_binomial_raises {N : Arr Int} {x : Arr ℝ} {i : Nat} (hi : i ≠ 0) : binomialMessageArr i N x = .error .valueError := by
  rw [binomialMessageArr, if_neg hi]

/-- **C84** -/
theorem C84_binomial_moments {N : Arr Int} {phi : Arr ℝ} (hN : BroadcastsTo N.shape P) (hp : BroadcastsTo phi.shape P) :
    ∃ u g, binomialMomentsArr N phi = .ok (u, g) ∧ BroadcastsTo u.shape P ∧ BroadcastsTo g.shape P ∧
      ∀ p, u.at (coord p) = (N.at (coord p) : ℝ) * (Real.exp (phi.at (coord p)) / (1 + Real.exp (phi.at (coord p)))) ∧
        g.at (coord p) = -((N.at (coord p) : ℝ) * Real.log (1 + Real.exp (phi.at (coord p)))) := by
  have hN' : BroadcastsTo (trialsReal N).shape P := hN
  obtain ⟨u, a1, a2, a3⟩ := sc_div (Y := npMap (fun x => 1 + Real.exp (-x)) phi) hN' hp
  obtain ⟨g, b1, b2, b3⟩ := sc_mul (X := npScaleBy (-1) (trialsReal N)) (Y := npMap (fun x => Real.log (1 + Real.exp x)) phi) hN' hp
  refine ⟨u, g, ?_, a2, b2, fun p => ⟨?_, ?_⟩⟩
  · simp only [binomialMomentsArr, a1, b1, bind, Except.bind, pure, Except.pure]
  · rw [a3, map_at]
    show (N.at (coord p) : ℝ) / _ = _
    have h1 := Real.exp_pos (phi.at (coord p))
    rw [Real.exp_neg]
    field_simp
    ring
  · rw [b3, map_at, scaleBy_at]
    show -1 * (N.at (coord p) : ℝ) * _ = _
    ring

/-! ## Dirichlet -/

/-- **C84** -/
theorem C84_dirichlet {u : Arr ℝ} {a : Arr2} (p : List Nat) :
    pairL k p (dirichletPhiArr a) u + (dirichletCgfArr a).at (coord p) = dirichletLog k p u a ∧
      pairL k p (dirichletMessageArr u).1 a.1 + (dirichletMessageArr u).2.at (coord p) * a.2.at (coord p) = dirichletLog k p u a := by
  refine ⟨rfl, ?_⟩
  simp only [dirichletMessageArr, num_at, one_mul, dirichletLog, pairL, mul_comm]

/-- **C84** The moments and the cumulant function are those of the Dirichlet distribution on every plate. -/
theorem C84_dirichlet_moments {phi : Arr ℝ} (h : PlatesDims phi.shape P [k]) (hpos : ∀ i ∈ indices phi.shape, 0 < phi.at (coord i)) :
    ∃ u g, dirichletMomentsArr phi = .ok (u, g) ∧ PlatesDims u.shape P [k] ∧ BroadcastsTo g.shape P ∧ ∀ p, DirichletOn k p phi u g := by
  obtain ⟨a, a1, a2, a3⟩ := reduce_ok List.sum (X := npMap gammaln phi) (P := P) (k := k) h
  obtain ⟨b, b1, b2, b3⟩ := reduce_ok List.sum h
  have c1 : reduceKeep List.sum phi = .ok (addTrailingAxes b 1) := by rw [reduceKeep, b1]; rfl
  have hd : PlatesDims (npMap digamma phi).shape P [k] := h
  have hb : BroadcastsTo (npMap digamma (addTrailingAxes b 1)).shape (P ++ [k]) := trail1_shape b2
  obtain ⟨S, hB, hb'⟩ := isBroadcast_of_common hd.broadcastsTo hb
  obtain ⟨u, d1, d2, d3⟩ := npSub_common hd.broadcastsTo hb
  obtain ⟨g, e1, e2, e3⟩ := sc_sub (X := npMap gammaln b) (P := P) b2 a2
  have hS : u.shape = S := by
    have hr := d1
    unfold npSub at hr
    rw [(broadcastedShape_ok _ _).2 hB] at hr
    exact (congrArg Arr.shape (Except.ok.inj hr)).symm
  refine ⟨u, g, ?_, by rw [hS]; exact platesDims_of_isBroadcast hB hb' (by simp) hd, e2, fun p => ⟨fun t ht => ?_, ?_⟩⟩
  · unfold dirichletMomentsArr
    rw [if_neg (by
      rintro ⟨i, hi, h'⟩
      exact absurd (hpos i hi) (by linarith))]
    simp only [a1, b1, c1, d1, e1, bind, Except.bind, pure, Except.pure]
  · rw [d3, map_at, map_at, trail1_at, b3, range_sum]
    rfl
  · rw [e3, map_at, a3, b3, range_sum, range_sum]
    rfl

/-- **C84** A concentration that is not positive raises. -/
theorem C84_dirichlet_moments_raises {phi : Arr ℝ} (h : ∃ i ∈ indices phi.shape, phi.at (coord i) ≤ 0) :
    dirichletMomentsArr phi = .error .valueError := by
  unfold dirichletMomentsArr
  rw [if_pos h]

/-! ## Multinomial -/

/-- **C84** -/
theorem C84_multinomial {u q : Arr ℝ} : ∃ m, multinomialMessageArr 0 u = .ok m ∧
    ∀ p, pairL k p m q = ∑ t ∈ Finset.range k, u.at (coord (p ++ [t])) * q.at (coord (p ++ [t])) ∧
      pairL k p (multinomialPhiArr q) u + (multinomialCgfArr q).at (coord p)
        = ∑ t ∈ Finset.range k, u.at (coord (p ++ [t])) * q.at (coord (p ++ [t])) := by
  refine ⟨u, rfl, fun p => ⟨rfl, ?_⟩⟩
  simp only [multinomialCgfArr, num_at, add_zero, pairL, multinomialPhiArr, mul_comm]

theorem C84_multinomial_raises {u : Arr ℝ} {i : Nat} (hi : i ≠ 0) : multinomialMessageArr i u = .error .valueError := by
  rw [multinomialMessageArr, if_neg hi]

theorem finite_fin (x : Flt) : ∃ M, Flt.finite x = .fin M := by cases x <;> exact ⟨_, rfl⟩

theorem exp_shift {x : Flt} (h : IsLog x) (M : ℝ) : Flt.exp (x - .fin M) = .fin (weight x * Real.exp (-M)) := by
  rcases h with rfl | ⟨a, rfl⟩
  · show Flt.fin 0 = .fin (0 * Real.exp (-M))
    rw [zero_mul]
  · show Flt.fin (Real.exp (a + -M)) = _
    rw [Real.exp_add, weight]

theorem flt_range_sum {F : Nat → Flt} {G : Nat → ℝ} (h : ∀ t < k, F t = .fin (G t)) :
    ((List.range k).map F).sum = .fin (∑ t ∈ Finset.range k, G t) := by
  rw [← range_sum]
  exact list_sum_fin _ fun t ht => h t (List.mem_range.1 ht)

theorem map_at' {α β : Type _} (f : α → β) (X : Arr α) (c : Nat → Nat) : (X.map f).at c = f (X.at c) := rfl

theorem npMap2_any {α β γ : Type} (f : α → β → γ) {X : Arr α} {Y : Arr β} {B : List Nat} (hX : BroadcastsTo X.shape B)
    (hY : BroadcastsTo Y.shape B) : ∃ r, npMap2 f X Y = .ok r ∧ IsBroadcast [X.shape, Y.shape] r.shape ∧ BroadcastsTo r.shape B ∧
      ∀ c, r.at c = f (X.at c) (Y.at c) := by
  obtain ⟨s, hs, hb⟩ := isBroadcast_of_common hX hY
  refine ⟨⟨s, fun c => f (X.at c) (Y.at c)⟩, ?_, hs, hb, fun c => ?_⟩
  · unfold npMap2
    rw [(broadcastedShape_ok _ _).2 hs]
    rfl
  · show f (X.at (restrict s c)) (Y.at (restrict s c)) = _
    rw [at_restrict ⟨hs.rank_ge _ (by simp), fun k => hs.fits k _ (by simp)⟩,
      at_restrict ⟨hs.rank_ge _ (by simp), fun k => hs.fits k _ (by simp)⟩]

theorem keep_shape {s : List Nat} (h : PlatesDims s P [1]) (k : Nat) : BroadcastsTo s (P ++ [k]) := by
  refine BroadcastsTo.trans' h.broadcastsTo ⟨by simp, fun m => ?_⟩
  rw [axisLen_append, axisLen_append]
  rcases m with _ | m
  · exact .inl (by simp [axisLen])
  · exact .inr (by simp)

theorem keep_at {α : Type _} {L : Arr α} (h : PlatesDims L.shape P [1]) (p : List Nat) (t : Nat) :
    L.at (coord (p ++ [t])) = L.at (coord (p ++ [0])) := by
  obtain ⟨S, hS, _⟩ := h
  show L.get _ = L.get _
  congr 1
  funext m
  unfold restrict
  rcases m with _ | m
  · rw [if_pos (by rw [hS, axisLen_append]; simp [axisLen]), if_pos (by rw [hS, axisLen_append]; simp [axisLen])]
  · have e : ∀ t, coord (p ++ [t]) (m + 1) = coord p m := fun t => by
      rw [coord_joinC]
      show joinC 1 _ _ (m + 1) = _
      rw [joinC_ge _ _ (by omega), Nat.add_sub_cancel]
    rw [e, e]

theorem squeeze_ok {α : Type _} {L : Arr α} (h : PlatesDims L.shape P [1]) :
    ∃ y, squeezeLast L = .ok y ∧ BroadcastsTo y.shape P ∧ ∀ p, y.at (coord p) = L.at (coord (p ++ [0])) := by
  obtain ⟨S, hS, hP⟩ := h
  have e : L.shape.dropLast = S := by rw [hS]; simp
  have e' : axisLen L.shape 0 = 1 := by rw [hS, axisLen_append]; simp [axisLen]
  refine ⟨⟨L.shape.dropLast, fun c => L.get (atLast c 0)⟩, by rw [squeezeLast, if_neg (by rw [e', hS]; simp)], ?_, fun p => ?_⟩
  · show BroadcastsTo L.shape.dropLast P
    rw [e]; exact hP
  · show L.get (atLast (restrict L.shape.dropLast (coord p)) 0) = _
    rw [e, last_at hS p (by omega)]

/-- a reduction that keeps the axis -/
theorem reduceKeep_ok {α β : Type _} (r : List α → β) {X : Arr α} (hX : PlatesDims X.shape P [k]) :
    ∃ y, reduceKeep r X = .ok y ∧ PlatesDims y.shape P [1] ∧
      ∀ p t, y.at (coord (p ++ [t])) = r ((List.range k).map fun t => X.at (coord (p ++ [t]))) := by
  obtain ⟨y, h1, h2, h3⟩ := keep_ok r hX
  exact ⟨_, h1, ⟨y.shape, rfl, h2⟩, fun p t => by rw [trail1_at, h3]⟩

/-- an operation of an array with a last axis and one with a kept axis -/
theorem op_keep (f : Flt → Flt → Flt) {X Y : Arr Flt} (hX : PlatesDims X.shape P [k]) (hY : PlatesDims Y.shape P [1]) :
    ∃ r, npMap2 f X Y = .ok r ∧ PlatesDims r.shape P [k] ∧ ∀ c, r.at c = f (X.at c) (Y.at c) := by
  obtain ⟨r, h1, h2, h3, h4⟩ := npMap2_any f hX.broadcastsTo (keep_shape hY k)
  exact ⟨r, h1, platesDims_of_isBroadcast h2 h3 (by simp) hX, h4⟩

theorem mul_keep {X Y : Arr Flt} (hX : PlatesDims X.shape P [1]) (hY : PlatesDims Y.shape P [k]) :
    ∃ r, npMul X Y = .ok r ∧ PlatesDims r.shape P [k] ∧ ∀ c, r.at c = X.at c * Y.at c := by
  obtain ⟨r, h1, h2, h3, h4⟩ := npMul_common (keep_shape hX k) hY.broadcastsTo
  exact ⟨r, h1, platesDims_of_isBroadcast h2 h3 (by simp) hY, h4⟩

/-- what `logsumexp` gives on a plate -/
structure LogSum (k : Nat) (p : List Nat) (phi L : Arr Flt) : Prop where
  possible : (∀ t < k, IsLog (phi.at (coord (p ++ [t])))) → 0 < totalWeight k p phi →
    ∀ t, L.at (coord (p ++ [t])) = .fin (Real.log (totalWeight k p phi))
  impossible : (∀ t < k, phi.at (coord (p ++ [t])) = .negInf) → ∀ t, L.at (coord (p ++ [t])) = .negInf

theorem logsumexp_ok {phi : Arr Flt} (h : PlatesDims phi.shape P [k]) (hk : 0 < k) :
    ∃ L, logsumexpKeep phi = .ok L ∧ PlatesDims L.shape P [1] ∧ ∀ p, LogSum k p phi L := by
  obtain ⟨M, a1, a2, a3⟩ := reduceKeep_ok (fun l => l.foldr Flt.max .negInf) h
  have hk0 : axisLen phi.shape 0 ≠ 0 := by
    obtain ⟨S, hS, _⟩ := h
    rw [hS, axisLen_append]
    simpa [axisLen] using hk.ne'
  have hM : PlatesDims (M.map Flt.finite).shape P [1] := a2
  obtain ⟨X, b1, b2, b3⟩ := op_keep (· - ·) h hM
  obtain ⟨s, c1, c2, c3⟩ := reduceKeep_ok List.sum (X := X.map Flt.exp) (P := P) (k := k) b2
  obtain ⟨L, d1, d2, d3⟩ := op_keep (· + ·) (X := s.map Flt.log) (k := 1) (P := P) c2 hM
  refine ⟨L, ?_, d2, fun p => ?_⟩
  · have b1' : npSub phi (M.map Flt.finite) = .ok X := b1
    have d1' : npAdd (s.map Flt.log) (M.map Flt.finite) = .ok L := d1
    unfold logsumexpKeep amaxKeep
    simp only [if_neg hk0, a1, b1', c1, d1', bind, Except.bind]
  obtain ⟨m, hm⟩ := finite_fin (M.at (coord (p ++ [0])))
  have hm' : ∀ t, (M.map Flt.finite).at (coord (p ++ [t])) = .fin m := fun t => by rw [keep_at hM, map_at', hm]
  have key : (∀ t < k, IsLog (phi.at (coord (p ++ [t])))) → ∀ t, s.at (coord (p ++ [t])) = .fin (totalWeight k p phi * Real.exp (-m)) := by
    intro hl t
    rw [c3, totalWeight, Finset.sum_mul]
    exact flt_range_sum fun j hj => by rw [map_at', b3, hm', exp_shift (hl j hj)]
  refine ⟨fun hl hw t => ?_, fun hl t => ?_⟩
  · rw [d3, hm', map_at', key hl]
    have hp := mul_pos hw (Real.exp_pos (-m))
    show Flt.log (.fin (totalWeight k p phi * Real.exp (-m))) + .fin m = _
    rw [Flt.log, if_neg hp.le.not_gt, if_neg hp.ne', Real.log_mul hw.ne' (Real.exp_pos _).ne', Real.log_exp]
    show Flt.fin (Real.log (totalWeight k p phi) + -m + m) = _
    rw [neg_add_cancel_right]
  · have hw : totalWeight k p phi = 0 := Finset.sum_eq_zero fun j hj => by
      rw [hl j (Finset.mem_range.1 hj)]
      rfl
    rw [d3, hm', map_at', key (fun t ht => .inl (hl t ht)), hw, zero_mul]
    show Flt.log (.fin 0) + .fin m = _
    rw [Flt.log, if_neg (lt_irrefl _), if_pos rfl]
    rfl

/-- **C84** On every plate with a possible category, the moments are the number of trials times the normalised weights of the categories
and the cumulant function is the logarithm of their sum; a parameter `-∞` is an impossible category. -/
theorem C84_multinomial_moments {N : Arr Int} {phi : Arr Flt} (hN : BroadcastsTo N.shape P) (h : PlatesDims phi.shape P [k]) (hk : 0 < k) :
    ∃ u g, multinomialMomentsArr N phi = .ok (u, g) ∧ PlatesDims u.shape P [k] ∧ BroadcastsTo g.shape P ∧
      ∀ p, ((∀ t < k, IsLog (phi.at (coord (p ++ [t])))) → 0 < totalWeight k p phi →
        (∀ t < k, u.at (coord (p ++ [t])) = .fin (N.at (coord p) * (weight (phi.at (coord (p ++ [t]))) / totalWeight k p phi))) ∧
        g.at (coord p) = .fin (-(N.at (coord p) * Real.log (totalWeight k p phi)))) ∧
        ((∀ t < k, phi.at (coord (p ++ [t])) = .negInf) → ∀ t < k, u.at (coord (p ++ [t])) = .nan) := by
  obtain ⟨L, a1, a2, a3⟩ := logsumexp_ok h hk
  obtain ⟨X, b1, b2, b3⟩ := op_keep (· - ·) h a2
  obtain ⟨s, c1, c2, c3⟩ := reduceKeep_ok List.sum (X := X.map Flt.exp) (P := P) (k := k) b2
  obtain ⟨q, d1, d2, d3⟩ := op_keep Flt.div (X := X.map Flt.exp) (k := k) (P := P) b2 c2
  have hN' : PlatesDims (addTrailingAxes (N.map intFlt) 1).shape P [1] := ⟨N.shape, rfl, hN⟩
  have nat : ∀ p t, (addTrailingAxes (N.map intFlt) 1).at (coord (p ++ [t])) = .fin (N.at (coord p)) := fun p t => by
    rw [trail1_at, map_at']
    rfl
  obtain ⟨u, e1, e2, e3⟩ := mul_keep hN' d2
  obtain ⟨nl, f1, f2, f3⟩ := mul_keep hN' a2
  obtain ⟨g, g1, g2, g3⟩ := squeeze_ok f2
  refine ⟨u, npNeg g, ?_, e2, g2, fun p => ⟨fun hl hw => ⟨fun t ht => ?_, ?_⟩, fun hl t ht => ?_⟩⟩
  · have b1' : npSub phi L = .ok X := b1
    unfold multinomialMomentsArr normalizedExpArr
    simp only [a1, b1', c1, d1, e1, f1, g1, bind, Except.bind, pure, Except.pure]
  · have hx : ∀ j < k, (X.map Flt.exp).at (coord (p ++ [j])) = .fin (weight (phi.at (coord (p ++ [j]))) / totalWeight k p phi) := by
      intro j hj
      rw [map_at', b3, (a3 p).possible hl hw, exp_shift (hl j hj), Real.exp_neg, Real.exp_log hw, div_eq_mul_inv]
    have hs : s.at (coord (p ++ [t])) = .fin 1 := by
      rw [c3, flt_range_sum hx, ← Finset.sum_div]
      exact congrArg _ (div_self hw.ne')
    rw [e3, nat, d3, hx t ht, hs, Flt.div, if_pos one_ne_zero, div_one]
    rfl
  · show -(g.at (coord p)) = _
    rw [g3, f3, nat, (a3 p).possible hl hw]
    rfl
  · have hx : ∀ j < k, (X.map Flt.exp).at (coord (p ++ [j])) = .nan := by
      intro j hj
      rw [map_at', b3, (a3 p).impossible hl, hl j hj]
      rfl
    rw [e3, nat, d3, hx t ht]
    rfl

/-- **C84** No categories raise. -/
theorem C84_multinomial_moments_raises {N : Arr Int} {phi : Arr Flt} (h : PlatesDims phi.shape P [0]) :
    multinomialMomentsArr N phi = .error .valueError := by
  have hk0 : axisLen phi.shape 0 = 0 := by
    obtain ⟨S, hS, _⟩ := h
    rw [hS, axisLen_append]
    simp [axisLen]
  unfold multinomialMomentsArr normalizedExpArr logsumexpKeep amaxKeep
  simp only [if_pos hk0, bind, Except.bind]

theorem foldr_max (l : List Flt) (h : ∀ x ∈ l, IsLog x) : (l.foldr Flt.max .negInf = .negInf ∧ ∀ x ∈ l, x = .negInf) ∨
    ∃ m, l.foldr Flt.max .negInf = .fin m ∧ .fin m ∈ l ∧ ∀ a, .fin a ∈ l → a ≤ m := by
  induction l with
  | nil => exact .inl ⟨rfl, by simp⟩
  | cons x l ih =>
    rw [List.foldr_cons]
    rcases h x (by simp) with rfl | ⟨a, rfl⟩ <;>
      rcases ih (fun y hy => h y (List.mem_cons_of_mem _ hy)) with ⟨h1, h2⟩ | ⟨m, h1, h2, h3⟩ <;> rw [h1]
    · exact .inl ⟨rfl, by simpa using h2⟩
    · exact .inr ⟨m, rfl, List.mem_cons_of_mem _ h2, fun a ha => by
        rcases List.mem_cons.1 ha with ha | ha
        · cases ha
        · exact h3 a ha⟩
    · exact .inr ⟨a, rfl, by simp, fun b hb => by
        rcases List.mem_cons.1 hb with hb | hb
        · cases hb; exact le_rfl
        · cases h2 _ hb⟩
    · refine .inr ⟨max a m, rfl, ?_, fun b hb => ?_⟩
      · rcases max_choice a m with e | e <;> rw [e]
        · simp
        · exact List.mem_cons_of_mem _ h2
      · rcases List.mem_cons.1 hb with hb | hb
        · cases hb; exact le_max_left _ _
        · exact (h3 b hb).trans (le_max_right _ _)

/-- **C84** The number that `logsumexp` subtracts on a plate is the largest parameter, so that no exponential overflows and one of them
is one. -/
theorem C84_logsumexp_shift {phi : Arr Flt} (h : PlatesDims phi.shape P [k]) (hk : 0 < k) :
    ∃ M, amaxKeep phi = .ok M ∧ PlatesDims M.shape P [1] ∧ ∀ p, (∀ t < k, IsLog (phi.at (coord (p ++ [t])))) →
      (∃ t < k, phi.at (coord (p ++ [t])) ≠ .negInf) →
      ∃ m, Flt.finite (M.at (coord (p ++ [0]))) = .fin m ∧ (∃ t < k, phi.at (coord (p ++ [t])) = .fin m) ∧
        ∀ t < k, ∀ a, phi.at (coord (p ++ [t])) = .fin a → a ≤ m := by
  obtain ⟨M, a1, a2, a3⟩ := reduceKeep_ok (fun l => l.foldr Flt.max .negInf) h
  have hk0 : axisLen phi.shape 0 ≠ 0 := by
    obtain ⟨S, hS, _⟩ := h
    rw [hS, axisLen_append]
    simpa [axisLen] using hk.ne'
  refine ⟨M, by rw [amaxKeep, if_neg hk0, a1], a2, fun p hl ⟨t, ht, hne⟩ => ?_⟩
  have mem : ∀ x, x ∈ (List.range k).map (fun t => phi.at (coord (p ++ [t]))) ↔ ∃ t < k, phi.at (coord (p ++ [t])) = x := by
    simp
  rcases foldr_max ((List.range k).map fun t => phi.at (coord (p ++ [t]))) (fun x hx => by
    obtain ⟨t, ht, rfl⟩ := (mem x).1 hx
    exact hl t ht) with ⟨_, h2⟩ | ⟨m, h1, h2, h3⟩
  · exact absurd (h2 _ ((mem _).2 ⟨t, ht, rfl⟩)) hne
  · refine ⟨m, ?_, (mem _).1 h2, fun t ht a ha => h3 a ((mem _).2 ⟨t, ht, ha⟩)⟩
    rw [a3, h1]
    rfl

end

/-! ## Examples -/

/-- Gamma variables with two plates: the rates `1` and `2`, the shape `3` on both. -/
noncomputable def gammaPhiExample : Arr2 := (⟨[2], fun c => -(c 0 : ℝ) - 1⟩, pyNum 3)

theorem gammaPhiExample_shaped : ShapedS [2] gammaPhiExample := ⟨BroadcastsTo.refl _, num_shape _ _⟩

theorem gammaPhiExample_neg (c : Nat → Nat) : gammaPhiExample.1.at c < 0 := by
  show -((restrict [2] c 0 : ℕ) : ℝ) - 1 < 0
  have := Nat.cast_nonneg (α := ℝ) (restrict [2] c 0)
  linarith

example : ∃ u g, gammaMomentsArr gammaPhiExample = .ok (u, g) ∧ u.1.at (coord [1]) = 3 / 2 := by
  obtain ⟨u, g, h1, _, _, h⟩ := C84_gamma_moments gammaPhiExample_shaped fun i _ => gammaPhiExample_neg _
  refine ⟨u, g, h1, ?_⟩
  have := (h [1] (by decide)).mean
  simp [gammaPhiExample, Arr.at, coord, restrict, axisLen, pyNum, npFull] at this
  simp only [Arr.at]
  linarith

example : gammaMomentsArr (⟨[2], fun c => (c 0 : ℝ) - 1⟩, pyNum 3) = .error .exception :=
  C84_gamma_moments_raises ⟨[1], by decide, by simp [Arr.at, coord, restrict, axisLen]⟩

example : ∃ m0 m1 g, gammaMessageArr 0 gammaPhiExample gammaPhiExample gammaPhiExample = .ok m0 ∧
    gammaMessageArr 1 gammaPhiExample gammaPhiExample gammaPhiExample = .ok m1 ∧
    gammaCgfArr gammaPhiExample gammaPhiExample = .ok g := by
  obtain ⟨m0, m1, g, h0, h1, h2, _⟩ := C84_gamma gammaPhiExample_shaped gammaPhiExample_shaped gammaPhiExample_shaped
  exact ⟨m0, m1, g, h0, h1, h2⟩

example : ∃ d, gammaGradientArr (deriv psi) gammaPhiExample gammaPhiExample = .ok d ∧ ShapedS [2] d := by
  obtain ⟨d, h1, h2, _⟩ := C84_gamma_gradient (tri := deriv psi) gammaPhiExample_shaped gammaPhiExample_shaped
  exact ⟨d, h1, h2⟩

/-- Two plates of trials, the probabilities shared. -/
example : ∃ m phi g, binomialMessageArr 0 ⟨[2], fun c => c 0 + 5⟩ (pyNum 2) = .ok m ∧ binomialPhiArr (pairArr (-1) (-2)) = .ok phi ∧
    binomialCgfArr ⟨[2], fun c => c 0 + 5⟩ (pairArr (-1) (-2)) = .ok g ∧ pairL 2 [1] m (pairArr (-1) (-2)) = 2 * -1 + 4 * -2 := by
  obtain ⟨m, phi, g, h1, h2, h3, _, _, _, h⟩ := C84_binomial (P := [2]) (N := ⟨[2], fun c => c 0 + 5⟩) (x := pyNum 2)
    (q := pairArr (-1) (-2)) (BroadcastsTo.refl _) (num_shape _ _) ⟨[], rfl, ⟨Nat.zero_le _, fun k => .inl (by simp [axisLen])⟩⟩
  refine ⟨m, phi, g, h1, h2, h3, (h [1]).2.trans ?_⟩
  rw [binomialLog, show ([1] : List Nat) ++ [0] = [1] ++ [0] from rfl, (pair_at (-1) (-2) [1]).1, (pair_at (-1) (-2) [1]).2]
  simp [Arr.at, trialsReal, coord, restrict, axisLen, pyNum, npFull]
  norm_num

example : ∃ u g, binomialMomentsArr ⟨[2], fun c => c 0 + 5⟩ (pyNum 0) = .ok (u, g) ∧ u.at (coord [1]) = 3 := by
  obtain ⟨u, g, h1, _, _, h⟩ := C84_binomial_moments (P := [2]) (N := ⟨[2], fun c => c 0 + 5⟩) (phi := pyNum 0)
    (BroadcastsTo.refl _) (num_shape _ _)
  refine ⟨u, g, h1, (h [1]).1.trans ?_⟩
  rw [num_at, Real.exp_zero]
  simp [Arr.at, coord, restrict, axisLen]
  norm_num

example : ∃ u g, dirichletMomentsArr ⟨[2, 3], fun c => (c 0 : ℝ) + c 1 + 1⟩ = .ok (u, g) ∧
    DirichletOn 3 [1] ⟨[2, 3], fun c => (c 0 : ℝ) + c 1 + 1⟩ u g := by
  obtain ⟨u, g, h1, _, _, h⟩ := C84_dirichlet_moments (P := [2]) (k := 3) (phi := ⟨[2, 3], fun c => (c 0 : ℝ) + c 1 + 1⟩)
    ⟨[2], rfl, BroadcastsTo.refl _⟩ fun i _ => by simp only [Arr.at]; positivity
  exact ⟨u, g, h1, h _⟩

example : dirichletMomentsArr ⟨[2], fun c => (c 0 : ℝ)⟩ = .error .valueError :=
  C84_dirichlet_moments_raises ⟨[0], by decide, by simp [Arr.at, coord, restrict, axisLen]⟩

/-- Two plates of three categories; on the first, the category 2 is impossible; on the second, all are. -/
noncomputable def categoriesExample : Arr Flt := ⟨[2, 3], fun c => if c 1 = 0 then (if c 0 = 2 then .negInf else .fin (Real.log 2)) else .negInf⟩

theorem categoriesExample_dims : PlatesDims categoriesExample.shape [2] [3] := ⟨[2], rfl, BroadcastsTo.refl _⟩

example : ∃ u g, multinomialMomentsArr ⟨[], fun _ => 10⟩ categoriesExample = .ok (u, g) ∧ u.at (coord [0, 1]) = .fin 5 ∧
    u.at (coord [0, 2]) = .fin 0 ∧ u.at (coord [1, 2]) = .nan := by
  obtain ⟨u, g, h1, _, _, h⟩ := C84_multinomial_moments (P := [2]) (N := ⟨[], fun _ => 10⟩) (phi := categoriesExample)
    ⟨Nat.zero_le _, fun k => .inl (by simp [axisLen])⟩ categoriesExample_dims (by omega)
  have e : ∀ t < 3, categoriesExample.at (coord ([0] ++ [t])) = if t = 2 then .negInf else .fin (Real.log 2) := by
    intro t _
    simp [categoriesExample, Arr.at, coord, restrict, axisLen]
  have e' : ∀ t < 3, categoriesExample.at (coord ([1] ++ [t])) = .negInf := by
    intro t _
    simp [categoriesExample, Arr.at, coord, restrict, axisLen]
  have w : totalWeight 3 [0] categoriesExample = 4 := by
    rw [totalWeight, Finset.sum_range_succ, Finset.sum_range_succ, Finset.sum_range_one, e 0 (by omega), e 1 (by omega), e 2 (by omega)]
    simp only [if_true, if_neg (show (0 : ℕ) ≠ 2 by omega), if_neg (show (1 : ℕ) ≠ 2 by omega), weight, Real.exp_log (show (0 : ℝ) < 2 by norm_num)]
    norm_num
  obtain ⟨h2, _⟩ := (h [0]).1 (fun t ht => by rw [e t ht]; split; exacts [.inl rfl, .inr ⟨_, rfl⟩]) (by rw [w]; norm_num)
  refine ⟨u, g, h1, (h2 1 (by omega)).trans ?_, (h2 2 (by omega)).trans ?_, (h [1]).2 e' 2 (by omega)⟩
  · rw [w, e 1 (by omega), if_neg (by omega), weight, Real.exp_log (by norm_num)]
    congr 1
    show ((10 : ℤ) : ℝ) * _ = _
    norm_num
  · rw [w, e 2 (by omega), if_pos rfl]
    congr 1
    show ((10 : ℤ) : ℝ) * (0 / 4) = _
    norm_num

end Verif
