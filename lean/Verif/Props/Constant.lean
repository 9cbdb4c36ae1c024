import Verif.Model.Constant
import Verif.Spec.Constant
import Verif.Lemmas.BandPlates

/-!
# C86: arrays given in place of nodes become constants with the right plates and moments
-/

namespace Verif
open Spec Matrix

variable {χ α : Type} {P s : List Nat}

/-- The plates are what is left of the shape of the first moment. -/
theorem constantInit_ok {δ : Type} {d : List δ} {ds : List (List δ)} {f : χ → Except PyErr (List (Arr α))} {x : χ} {u0 : Arr α} {us : List (Arr α)}
    {e : List Nat} (h : f x = .ok (u0 :: us)) (hu : u0.shape = P ++ e) (he : e.length = d.length) :
    constantInit (d :: ds) f x = .ok ⟨x, d :: ds, P, u0 :: us⟩ := by
  have hp : (if d.length > 0 then u0.shape.take (u0.shape.length - d.length) else u0.shape) = P := by
    split_ifs with h0
    · rw [hu, List.length_append, he, Nat.add_sub_cancel, List.take_left]
    · have : e = [] := List.length_eq_zero_iff.1 (by omega)
      rw [hu, this, List.append_nil]
  simp only [constantInit, h, bind, Except.bind, pure, Except.pure, hp]

theorem constantInit_error {δ : Type} {ds : List (List δ)} {f : χ → Except PyErr (List (Arr α))} {x : χ} {e : PyErr} (h : f x = .error e) :
    constantInit ds f x = .error e := by
  simp only [constantInit, h, bind, Except.bind]

theorem momentsFit_one {u0 : Arr α} {d : List Nat} (h : u0.shape = P ++ d) : MomentsFit P [d] [u0] P [d] :=
  ⟨rfl, rfl, .cons (h ▸ BroadcastsTo_refl _) .nil, fun a e ha he => by cases ha; cases he; exact h⟩

theorem momentsFit_two {u0 u1 : Arr α} {d e : List Nat} (h : u0.shape = P ++ d) (h' : u1.shape = P ++ e) :
    MomentsFit P [d, e] [u0, u1] P [d, e] :=
  ⟨rfl, rfl, .cons (h ▸ BroadcastsTo_refl _) (.cons (h' ▸ BroadcastsTo_refl _) .nil), fun a e ha he => by cases ha; cases he; exact h⟩

theorem anyOf_indices {β : Type} {x : Arr β} {p : β → Bool} (h : ∀ c, ValidIn x.shape c → p (x.get c) = false) : npAnyOf x p = false :=
  npAnyOf_false.2 h

/-! ### Scalars: gamma variables and their shapes -/

/-- **C86** Positive shapes of gamma distributions: `[a, log Γ(a)]`, every axis a plate. -/
theorem C86_gamma_prior (a : Arr ℝ) (ha : ∀ c, ValidIn a.shape c → 0 < a.get c) :
    ∃ u0 u1, gammaPriorConstant a = .ok ⟨a, [[], []], a.shape, [u0, u1]⟩ ∧ MomentsFit a.shape [[], []] [u0, u1] a.shape [[], []] ∧
      ∀ c, ValidIn a.shape c → u0.get c = a.get c ∧ u1.get c = Real.log (Real.Gamma (a.get c)) := by
  have hn : npAnyOf a (fun v => decide (v ≤ 0)) = false := npAnyOf_false.2 fun c hc => by simpa using ha c hc
  refine ⟨a, npMap gammaln a, constantInit_ok (e := []) ?_ (by simp) rfl, momentsFit_two (by simp) (by simp [npMap]), fun c _ => ⟨rfl, rfl⟩⟩
  unfold gammaPriorValue
  rw [hn]
  rfl

theorem C86_gamma_prior_raises (a : Arr ℝ) (ha : ∃ c, ValidIn a.shape c ∧ a.get c ≤ 0) : gammaPriorConstant a = .error .valueError := by
  obtain ⟨c, hc, h⟩ := ha
  refine constantInit_error ?_
  unfold gammaPriorValue
  rw [npAnyOf_iff.2 ⟨c, hc, by simpa using h⟩]
  rfl

/-- **C86** Positive values of gamma variables: `[x, log x]` -/
theorem C86_gamma (x : Arr Flt) (q : (Nat → Nat) → ℝ) (hx : ∀ c, ValidIn x.shape c → x.get c = .fin (q c) ∧ 0 < q c) :
    ∃ u0 u1, gammaConstant x = .ok ⟨x, [[], []], x.shape, [u0, u1]⟩ ∧ MomentsFit x.shape [[], []] [u0, u1] x.shape [[], []] ∧
      ∀ c, ValidIn x.shape c → u0.get c = .fin (q c) ∧ u1.get c = .fin (Real.log (q c)) := by
  have hn : npAnyOf x (fun v => v.lt 0) = false := npAnyOf_false.2 fun c hc => by
    rw [(hx c hc).1]; simp [Flt.lt, (hx c hc).2.le]
  refine ⟨x, x.map Flt.log, constantInit_ok (e := []) ?_ (by simp) rfl, momentsFit_two (by simp) (by simp [Arr.map]), fun c hc =>
    ⟨(hx c hc).1, ?_⟩⟩
  · unfold gammaValue
    rw [hn]
    rfl
  · show (x.get c).log = _
    rw [(hx c hc).1]
    simp [Flt.log, (hx c hc).2.le, (hx c hc).2.ne']

/-- A negative value is rejected.  Zero is not: its logarithm is `-inf`. -/
theorem C86_gamma_raises (x : Arr Flt) (r : ℝ) (hx : ∃ c, ValidIn x.shape c ∧ x.get c = .fin r ∧ r < 0) :
    gammaConstant x = .error .valueError := by
  obtain ⟨c, hc, h, hr⟩ := hx
  refine constantInit_error ?_
  unfold gammaValue
  rw [npAnyOf_iff.2 ⟨c, hc, by rw [h]; simpa [Flt.lt] using hr⟩]
  rfl

/-! ### Gaussian and Gaussian-gamma variables -/

theorem valueShape_append {x : Arr ℝ} (hx : x.shape = P ++ s) : valueShape x s.length = s := by
  unfold valueShape
  split_ifs with h
  · exact (List.length_eq_zero_iff.1 h).symm
  · rw [hx, trailing_append]

theorem atleast_enough {x : Arr ℝ} {n : Nat} (h : n ≤ x.shape.length) : atleastAxes x n = x := by
  unfold atleastAxes
  rw [Nat.sub_eq_zero_of_le h]
  rfl

/-- **C86** An array as a Gaussian parent over the axes `s`: the leading axes are the plates, and on every plate the moments are the vector
and its outer product. -/
theorem C86_gaussian (x : Arr ℝ) (hx : x.shape = P ++ s) :
    ∃ u0 u1, gaussianConstant s.length x = .ok ⟨x, [s, s ++ s], P, [u0, u1]⟩ ∧ MomentsFit P [s, s ++ s] [u0, u1] P [s, s ++ s] ∧
      ∀ p ∈ indices P, vectorOf u0 p s = vectorOf x p s ∧ matrixOf u1 p s s = vecMulVec (vectorOf x p s) (vectorOf x p s) := by
  obtain ⟨Y, h1, h2, h3⟩ := C79_outer hx hx rfl (isBroadcast_self P)
  refine ⟨x, Y, ?_, momentsFit_two hx (by rw [h2, List.append_assoc]), fun p hp => ⟨rfl, h3 p hp⟩⟩
  unfold gaussianConstant
  simp only [valueShape_append hx]
  refine constantInit_ok (e := s) ?_ hx rfl
  unfold gaussianValue
  rw [atleast_enough (by rw [hx]; simp)]
  simp only [h1, bind, Except.bind, pure, Except.pure]

/-- An array with fewer axes than asked for is not rejected: the constant has moments with fewer axes. -/
theorem C86_gaussian_few_axes (x : Arr ℝ) (n : Nat) (hn : x.shape.length < n) :
    ∃ u0 u1, gaussianConstant n x = .ok ⟨x, [x.shape, x.shape ++ x.shape], [], [u0, u1]⟩ := by
  obtain ⟨u0, u1, h, -⟩ := C86_gaussian (P := []) (s := x.shape) x rfl
  refine ⟨u0, u1, ?_⟩
  rw [← h]
  have e : valueShape x n = x.shape := by
    unfold valueShape trailingShape
    rw [if_neg (by omega), Nat.sub_eq_zero_of_le hn.le, List.drop_zero]
  have e' : valueShape x x.shape.length = x.shape := valueShape_append (P := []) rfl
  unfold gaussianConstant
  simp only [e, e']

/-- So the dimensions are not those of a variable over `n` axes. -/
theorem C86_gaussian_axes_refuted : ∃ (x : Arr ℝ) (node : ConstNode (Arr ℝ) Nat ℝ), gaussianConstant 1 x = .ok node ∧
    ∀ d, node.dims.head? = some d → d.length ≠ 1 := by
  obtain ⟨u0, u1, h⟩ := C86_gaussian_few_axes ⟨[], fun _ => 3⟩ 1 (by simp)
  exact ⟨_, _, h, fun d hd => by cases hd; simp⟩

/-- **C86** A pair of arrays as a Gaussian-gamma parent over at least one axis: the plates are those of both arrays together, and on every
plate the moments are `α x`, `α x xᵀ`, `α` and `log α`. -/
theorem C86_gaussian_gamma_partial {Q : List Nat} (x alpha : Arr ℝ) (hs : s ≠ []) (hx : x.shape = Q ++ s) (hP : IsBroadcast [Q, alpha.shape] P) :
    ∃ u0 u1 u2 u3, gaussianGammaConstant s.length (x, alpha) =
        .ok ⟨(x, alpha), [s.map .num, s.map .num ++ s.map .num, [], []], P, [u0, u1, u2, u3]⟩ ∧
      MomentsFit P [s, s ++ s, [], []] [u0, u1, u2, u3] P [s, s ++ s, [], []] ∧
      ∀ p ∈ indices P, vectorOf u0 p s = alpha.at (coord p) • vectorOf x p s ∧
        matrixOf u1 p s s = alpha.at (coord p) • vecMulVec (vectorOf x p s) (vectorOf x p s) ∧
        u2.at (coord p) = alpha.at (coord p) ∧ u3.at (coord p) = Real.log (alpha.at (coord p)) := by
  have hQ : BroadcastsTo Q P := IsBroadcast.to hP (by simp)
  have ha : BroadcastsTo alpha.shape P := IsBroadcast.to hP (by simp)
  have hX : PlatesDims x.shape P s := ⟨Q, hx, hQ⟩
  obtain ⟨u0, a1, a2, a3⟩ := mul_trail hX ha
  obtain ⟨Y, b1, b2, b3⟩ := po_outer hX hX rfl
  obtain ⟨u1, c1, c2, c3⟩ := mul_trail2 b2 ha
  have h0 : u0.shape = P ++ s := by
    obtain ⟨r, r1, r2, -, -⟩ := npMul_common hX.broadcastsTo (trailing_shape (n := s.length) ha rfl)
    obtain rfl := Except.ok.inj (a1.symm.trans r1)
    refine isBroadcast_unique r2 ?_
    have e : (addTrailingAxes alpha s.length).shape = alpha.shape ++ List.replicate s.length 1 := rfl
    rw [hx, e]
    refine isBroadcast_append₂ hP ?_ rfl (by simp)
    refine isBroadcast_swap (isBroadcast_of_to ⟨by simp, fun k => .inl ?_⟩)
    unfold axisLen
    rw [List.reverse_replicate, List.getElem?_replicate]
    split_ifs <;> rfl
  refine ⟨u0, u1, alpha, npMap Real.log alpha, ?_, ⟨rfl, rfl, .cons (h0 ▸ BroadcastsTo_refl _) (.cons c2.broadcastsTo
    (.cons (by simpa using ha) (.cons (by simpa [npMap] using ha) .nil))), fun a d h h' => by cases h; cases h'; exact h0⟩, fun p hp =>
      ⟨a3 p, by rw [c3, b3 p hp], rfl, rfl⟩⟩
  have hne : s.length ≠ 0 := fun h => hs (List.length_eq_zero_iff.1 h)
  unfold gaussianGammaConstant
  simp only [if_neg hne, hx, trailing_append]
  refine constantInit_ok (e := s) ?_ h0 (by simp)
  simp only [gaussianGammaValue, List.length_map, a1, b1, c1, bind, Except.bind, pure, Except.pure]

/-- Missing above: scalar variables.  No pair of arrays with fewer than four axes is accepted for them. -/
theorem C86_gaussian_gamma_scalar_raises (x alpha : Arr ℝ) (hx : x.shape.length < 4) (hP : ∃ B, BroadcastsTo x.shape B ∧
    BroadcastsTo (addTrailingAxes alpha 4).shape B) : gaussianGammaConstant 0 (x, alpha) = .error .valueError := by
  obtain ⟨B, h1, h2⟩ := hP
  obtain ⟨r, r1, -⟩ := npMul_common h1 h2
  refine constantInit_error ?_
  simp only [if_pos, List.length_replicate, gaussianGammaValue, r1, C79_outer_raises (A := x) (B := x) (d := 4) (.inl hx), bind, Except.bind]

/-- The number 2 with the precision 3 is a Gaussian-gamma value, and is rejected. -/
theorem C86_gaussian_gamma_scalar_refuted : gaussianGammaConstant 0 (⟨[], fun _ => 2⟩, ⟨[], fun _ => 3⟩) = .error .valueError :=
  C86_gaussian_gamma_scalar_raises _ _ (by simp) ⟨[1, 1, 1, 1], ⟨by simp, fun k => .inl (by simp [axisLen])⟩, BroadcastsTo_refl _⟩

/-! ### Wishart variables and their degrees of freedom -/

/-- **C86** Degrees of freedom above `k - 1`: `[n, log Γ_k(n/2)]` -/
theorem C86_wishart_prior (k : Nat) (n : Arr ℝ) (hn : ∀ c, ValidIn n.shape c → (k : ℝ) - 1 < n.get c) :
    ∃ u0 u1, wishartPriorConstant k n = .ok ⟨n, [[], []], n.shape, [u0, u1]⟩ ∧ MomentsFit n.shape [[], []] [u0, u1] n.shape [[], []] ∧
      ∀ c, ValidIn n.shape c → u0.get c = n.get c ∧
        u1.get c = (k : ℝ) * (k - 1) / 4 * Real.log Real.pi + ∑ j ∈ Finset.range k, Real.log (Real.Gamma ((n.get c - j) / 2)) := by
  refine ⟨n, npMap (fun x => multigammaln x k) (npScaleBy 0.5 n), constantInit_ok (e := []) ?_ (by simp) rfl,
    momentsFit_two (by simp) (by simp [npMap, npScaleBy]), fun c _ => ⟨rfl, ?_⟩⟩
  · have : multigammalnArr (npScaleBy 0.5 n) k = .ok (npMap (fun x => multigammaln x k) (npScaleBy 0.5 n)) := by
      unfold multigammalnArr
      rw [if_pos]
      intro i hi
      have := hn _ (coord_valid (s := n.shape) hi)
      show 0.5 * ((k : ℝ) - 1) < 0.5 * n.get (coord i)
      linarith
    simp only [wishartPriorValue, this, bind, Except.bind, pure, Except.pure]
  · show multigammaln (0.5 * n.get c) k = _
    unfold multigammaln gammaln
    congr 1
    refine Finset.sum_congr rfl fun j _ => ?_
    congr 2
    ring

theorem C86_wishart_prior_raises (k : Nat) (n : Arr ℝ) (hn : ∃ c, ValidIn n.shape c ∧ n.get c ≤ (k : ℝ) - 1) :
    wishartPriorConstant k n = .error .valueError := by
  obtain ⟨c, hc, h⟩ := hn
  obtain ⟨i, hi, rfl⟩ := exists_index_of_valid hc
  refine constantInit_error ?_
  have : multigammalnArr (npScaleBy 0.5 n) k = .error .valueError := by
    unfold multigammalnArr
    rw [if_neg]
    intro h'
    have h1 : 0.5 * ((k : ℝ) - 1) < 0.5 * n.get (coord i) := h' i hi
    linarith
  simp only [wishartPriorValue, this, bind, Except.bind]

theorem wishart_checks {L : Arr ℝ} (hL : L.shape = P ++ s ++ s) :
    wishartConstant s.length L = constantInit [s ++ s, []] (wishartValue s.length) L := by
  have h1 : ¬ L.shape.length < 2 * s.length := by rw [hL]; simp; omega
  have e1 : trailingShape L.shape s.length = s := by rw [hL, trailing_append]
  have e2 : trailingShape L.shape (2 * s.length) = s ++ s := by
    have := trailing_append P (s ++ s)
    rwa [List.length_append, ← two_mul, ← List.append_assoc, ← hL] at this
  have h2 : ¬ (s.length > 0 ∧ trailingShape L.shape s.length ≠ (trailingShape L.shape (2 * s.length)).take s.length) := by
    rw [e1, e2, List.take_left]; simp
  unfold wishartConstant
  simp only [if_neg h1, if_neg h2, valueShape_append hL, bind, Except.bind]

/-- **C86** An array of positive definite matrices over the axes `s` as a Wishart parent: the matrix and the logarithm of its determinant -/
theorem C86_wishart (L : Arr ℝ) (hL : L.shape = P ++ s ++ s) (hpd : ∀ p ∈ indices P, (matrixOf L p s s).PosDef) :
    ∃ u0 u1, wishartConstant s.length L = .ok ⟨L, [s ++ s, []], P, [u0, u1]⟩ ∧ MomentsFit P [s ++ s, []] [u0, u1] P [s ++ s, []] ∧
      ∀ p ∈ indices P, matrixOf u0 p s s = matrixOf L p s s ∧ u1.get (coord p) = Real.log (matrixOf L p s s).det := by
  obtain ⟨U, h1, h2⟩ := C76_chol L P s hL hpd
  obtain ⟨l, h3, h4, h5⟩ := C76_logdet h2
  have hL' : L.shape = P ++ (s ++ s) := by rw [hL, List.append_assoc]
  refine ⟨L, l, ?_, momentsFit_two hL' (by simpa using h4), fun p hp => ⟨rfl, h5 p hp⟩⟩
  rw [wishart_checks hL]
  refine constantInit_ok (e := s ++ s) ?_ hL' rfl
  simp only [wishartValue, h1, h3, bind, Except.bind, pure, Except.pure]

/-- A symmetric matrix that is not positive definite is rejected. -/
theorem C86_wishart_not_posdef (L : Arr ℝ) (hs : s ≠ []) (hL : L.shape = P ++ s ++ s) (hsym : ∀ p ∈ indices P, (matrixOf L p s s).IsSymm)
    (hpd : ∃ p ∈ indices P, ¬ (matrixOf L p s s).PosDef) : wishartConstant s.length L = .error .exception := by
  rw [wishart_checks hL]
  refine constantInit_error ?_
  simp only [wishartValue, C76_chol_raises L P s hL hs hsym hpd, bind, Except.bind]

/-- Arrays that do not end with the axes of square matrices are rejected. -/
theorem C86_wishart_wrong_shape (L : Arr ℝ) (n : Nat) (hn : 0 < n) (h : ¬ ∃ P s, s.length = n ∧ L.shape = P ++ s ++ s) :
    wishartConstant n L = .error .valueError := by
  unfold wishartConstant
  by_cases h1 : L.shape.length < 2 * n
  · simp only [if_pos h1, throw, throwThe, MonadExceptOf.throw, bind, Except.bind]
  · have h2 : n > 0 ∧ trailingShape L.shape n ≠ (trailingShape L.shape (2 * n)).take n := by
      refine ⟨hn, fun h2 => h ⟨L.shape.take (L.shape.length - 2 * n), trailingShape L.shape n, ?_, ?_⟩⟩
      · unfold trailingShape; rw [List.length_drop]; omega
      · have e : (trailingShape L.shape (2 * n)).drop n = trailingShape L.shape n := by
          unfold trailingShape; rw [List.drop_drop]; congr 1; omega
        have e' : trailingShape L.shape (2 * n) = trailingShape L.shape n ++ trailingShape L.shape n := by
          rw [← List.take_append_drop n (trailingShape L.shape (2 * n)), ← h2, e]
        rw [List.append_assoc, ← e']
        exact (List.take_append_drop _ _).symm
    simp only [if_neg h1, if_pos h2, throw, throwThe, MonadExceptOf.throw, bind, Except.bind]

/-! ### Probabilities -/

theorem dirichletValue_of_observe {p : Arr Flt} {u : List (Arr Flt)} {f : Arr Flt} (h : dirichletObserve p = .ok (u, f)) :
    dirichletValue p = .ok u := by
  unfold dirichletObserve at h
  unfold dirichletValue
  split_ifs at h ⊢
  simp only [Except.ok.injEq, Prod.mk.injEq] at h
  rw [h.1]

theorem dirichletValue_error {p : Arr Flt} (h : ¬ ∃ u, dirichletObserve p = .ok u) : dirichletValue p = .error .valueError := by
  unfold dirichletObserve at h
  unfold dirichletValue
  split_ifs at h ⊢ <;> first | rfl | exact absurd ⟨_, rfl⟩ h

/-- **C86** Positive numbers along the last axis with a sum close to one: the logarithms of the normalised probabilities; the last axis is
the categories, the others are plates. -/
theorem C86_dirichlet (p : Arr Flt) (K : Nat) (hp : p.shape = P ++ [K]) (q : (Nat → Nat) → Fin K → ℝ)
    (hq : ∀ c, ValidIn P c → (∀ k : Fin K, p.get (atLast c k) = .fin (q c k) ∧ 0 < q c k ∧ q c k ≤ 1) ∧
      |∑ k, q c k - 1| ≤ 1 / 10 ^ 8 + 1 / 10 ^ 5) :
    ∃ u0, dirichletConstant p = .ok ⟨p, [[K]], P, [u0]⟩ ∧ MomentsFit P [[K]] [u0] P [[K]] ∧
      ∀ c, ValidIn P c → ∀ k : Fin K, u0.get (atLast c k) = .fin (Real.log (q c k / ∑ j, q c j)) := by
  obtain ⟨⟨u, f⟩, hu⟩ : ∃ u, dirichletObserve p = .ok u := by
    rw [C62_dirichlet_accepts p P K hp]
    refine ⟨fun c => if h : c 0 < K then q (fun k => c (k + 1)) ⟨c 0, h⟩ else 0, fun c hc k hk => ?_, fun c hc => ?_⟩
    · have e : (if h : atLast c k 0 < K then q (fun l => atLast c k (l + 1)) ⟨atLast c k 0, h⟩ else 0) = q c ⟨k, hk⟩ := dif_pos hk
      obtain ⟨h1, h2, h3⟩ := (hq c hc).1 ⟨k, hk⟩
      beta_reduce
      rw [e]
      exact ⟨h1, h2.le, h3⟩
    · refine le_trans (le_of_eq ?_) (hq c hc).2
      congr 2
      rw [← Fin.sum_univ_eq_sum_range (fun k => if h : atLast c k 0 < K then q (fun l => atLast c k (l + 1)) ⟨atLast c k 0, h⟩ else 0)]
      exact Finset.sum_congr rfl fun k _ => dif_pos k.2
  obtain ⟨u0, rfl, h2, -, h4⟩ := C62_dirichlet p P K hp q (fun c hc k => ⟨((hq c hc).1 k).1, ((hq c hc).1 k).2.1⟩) u f hu
  have hK : axisLen p.shape 0 = K := by rw [hp]; simp [axisLen]
  refine ⟨u0, ?_, momentsFit_one (h2.trans hp), fun c hc k => (h4 c hc).1 k⟩
  unfold dirichletConstant
  rw [if_neg (by rw [hp]; simp), hK]
  exact constantInit_ok (e := [K]) (dirichletValue_of_observe hu) (h2.trans hp) rfl

/-- Everything that is not a table of numbers in `[0, 1]` with sums close to one is rejected. -/
theorem C86_dirichlet_raises (p : Arr Flt) (K : Nat) (hp : p.shape = P ++ [K]) (hn : ¬ ∃ q : (Nat → Nat) → ℝ,
    (∀ c, ValidIn P c → ∀ k < K, p.get (atLast c k) = .fin (q (atLast c k)) ∧ 0 ≤ q (atLast c k) ∧ q (atLast c k) ≤ 1) ∧
      ∀ c, ValidIn P c → |∑ k ∈ Finset.range K, q (atLast c k) - 1| ≤ 1 / 10 ^ 8 + 1 / 10 ^ 5) :
    dirichletConstant p = .error .valueError := by
  have h := dirichletValue_error (mt (C62_dirichlet_accepts p P K hp).1 hn)
  unfold dirichletConstant
  rw [if_neg (by rw [hp]; simp)]
  exact constantInit_error h

theorem C86_dirichlet_number_raises (p : Arr Flt) (hp : p.shape = []) : dirichletConstant p = .error .valueError := by
  unfold dirichletConstant
  rw [if_pos (by rw [hp]; simp)]

/-- **C86** Probabilities strictly between zero and one as a beta parent: `[log p, log(1 - p)]`, every axis a plate -/
theorem C86_beta (p : Arr Flt) (q : (Nat → Nat) → ℝ) (hq : ∀ c, ValidIn p.shape c → p.get c = .fin (q c) ∧ 0 < q c ∧ q c < 1) :
    ∃ u0, betaConstant p = .ok ⟨p, [[2]], p.shape, [u0]⟩ ∧ MomentsFit p.shape [[2]] [u0] p.shape [[2]] ∧
      ∀ c, ValidIn p.shape c → u0.get (atLast c 0) = .fin (Real.log (q c)) ∧ u0.get (atLast c 1) = .fin (Real.log (1 - q c)) := by
  obtain ⟨⟨u, f⟩, hu⟩ := (C62_beta_accepts p).2 fun c hc => ⟨q c, (hq c hc).1, (hq c hc).2.1.le, (hq c hc).2.2.le⟩
  obtain ⟨u0, rfl, h2, -, h4⟩ := C62_dirichlet (betaPair p) p.shape 2 rfl (fun c => ![q c, 1 - q c]) (fun c hc k => by
    obtain ⟨h, h0, h1⟩ := hq c hc
    fin_cases k
    · refine ⟨?_, by simpa using h0⟩
      show p.get c * .fin 1 + .fin 0 = _
      rw [h, Flt.fin_mul, Flt.fin_add]; simp
    · refine ⟨?_, by simpa using h1⟩
      show p.get c * .fin (-1) + .fin 1 = _
      rw [h, Flt.fin_mul, Flt.fin_add]; simp; ring) u f hu
  refine ⟨u0, constantInit_ok (e := [2]) (dirichletValue_of_observe hu) h2 rfl, momentsFit_one h2, fun c hc => ⟨?_, ?_⟩⟩
  · simpa [dirichletFixed] using (h4 c hc).1 0
  · simpa [dirichletFixed] using (h4 c hc).1 1

theorem C86_beta_raises (p : Arr Flt) (hp : ¬ ∀ c, ValidIn p.shape c → ∃ r : ℝ, p.get c = .fin r ∧ 0 ≤ r ∧ r ≤ 1) :
    betaConstant p = .error .valueError := constantInit_error (dirichletValue_error (mt (C62_beta_accepts p).1 hp))

theorem concentration_ok {a : Arr Flt} {K : Nat} (ha : a.shape = P ++ [K]) (hn : npAnyOf a (fun v => v.lt 0) = false) :
    ∃ z, concentrationConstant a = .ok ⟨a, [[K], []], P, [a, z]⟩ ∧ z.shape = P ∧
      ∀ c, ValidIn P c → z.get c = gammalnFlt (Flt.sum (a.lastAxis c)) - Flt.sum ((a.map gammalnFlt).lastAxis c) := by
  have hs : ((npSumLastFlt a).map gammalnFlt).shape = P := by show a.shape.dropLast = P; rw [ha]; simp
  have hs' : (npSumLastFlt (a.map gammalnFlt)).shape = P := by show a.shape.dropLast = P; rw [ha]; simp
  obtain ⟨z, h1, h2, h3⟩ := map2_left (fun s t : Flt => s - t) hs (Y := npSumLastFlt (a.map gammalnFlt)) (hs' ▸ BroadcastsTo_refl P)
  have hK : axisLen a.shape 0 = K := by rw [ha]; simp [axisLen]
  refine ⟨z, ?_, h2, fun c hc => ?_⟩
  · unfold concentrationConstant
    rw [if_neg (by rw [ha]; simp), hK]
    refine constantInit_ok (e := [K]) ?_ ha rfl
    unfold concentrationValue
    rw [if_neg (by rw [ha]; simp), hn]
    simp only [h1, bind, Except.bind, pure, Except.pure]
    rfl
  · rw [← at_of_shape h2 hc, h3, at_of_shape hs hc, at_of_shape hs' hc]
    rfl

theorem lastAxis_map {a : Arr Flt} {K : Nat} (ha : a.shape = P ++ [K]) (f : Flt → Flt) (c : Nat → Nat) :
    (a.map f).lastAxis c = (List.range K).map fun t => f (a.get (atLast c t)) := lastAxis_eq (x := a.map f) ha c

/-- **C86** Positive prior sample sizes: the array itself and `log Γ(Σ α) - Σ log Γ(α)` -/
theorem C86_concentration_partial (a : Arr Flt) (K : Nat) (hK : 0 < K) (ha : a.shape = P ++ [K]) (q : (Nat → Nat) → Nat → ℝ)
    (hq : ∀ c, ValidIn P c → ∀ k < K, a.get (atLast c k) = .fin (q c k) ∧ 0 < q c k) :
    ∃ u0 u1, concentrationConstant a = .ok ⟨a, [[K], []], P, [u0, u1]⟩ ∧ MomentsFit P [[K], []] [u0, u1] P [[K], []] ∧
      ∀ c, ValidIn P c → (∀ k < K, u0.get (atLast c k) = .fin (q c k)) ∧
        u1.get c = .fin (Real.log (Real.Gamma (∑ k ∈ Finset.range K, q c k)) - ∑ k ∈ Finset.range K, Real.log (Real.Gamma (q c k))) := by
  have hn : npAnyOf a (fun v => v.lt 0) = false := npAnyOf_false.2 fun c hc => by
    rw [ha, validIn_append_one] at hc
    have e : c = atLast (fun k => c (k + 1)) (c 0) := by funext k; rcases k with _ | k <;> rfl
    obtain ⟨h1, h2⟩ := hq _ hc.2 _ hc.1
    rw [e, h1]
    simp [Flt.lt, h2.le]
  obtain ⟨z, h1, h2, h3⟩ := concentration_ok ha hn
  refine ⟨a, z, h1, momentsFit_two ha (by simpa using h2), fun c hc => ⟨fun k hk => (hq c hc k hk).1, ?_⟩⟩
  have hpos : 0 < ∑ k ∈ Finset.range K, q c k :=
    Finset.sum_pos (fun k hk => (hq c hc k (Finset.mem_range.1 hk)).2) ⟨0, Finset.mem_range.2 hK⟩
  have e : ∀ g : Nat → ℝ, ((List.range K).map g).sum = ∑ k ∈ Finset.range K, g k := fun g => by
    rw [Finset.sum_eq_multiset_sum, Finset.range_val, ← Multiset.coe_range, Multiset.map_coe, Multiset.sum_coe]
  rw [h3 c hc, lastAxis_eq ha, lastAxis_map ha, Flt.sum_fin _ _ (q c) fun k hk => (hq c hc k (List.mem_range.1 hk)).1,
    Flt.sum_fin _ _ (fun k => gammaln (q c k)) fun k hk => by
      obtain ⟨g1, g2⟩ := hq c hc k (List.mem_range.1 hk)
      rw [g1]; simp [gammalnFlt, g2.ne'], e, e]
  simp only [gammalnFlt, if_neg hpos.ne']
  exact Flt.fin_sub _ _

theorem C86_concentration_raises (a : Arr Flt) (r : ℝ) (ha : a.shape = [] ∨ ∃ c, ValidIn a.shape c ∧ a.get c = .fin r ∧ r < 0) :
    concentrationConstant a = .error .valueError := by
  unfold concentrationConstant
  split_ifs with h
  · rfl
  · rcases ha with ha | ⟨c, hc, h1, h2⟩
    · exact absurd (by rw [ha]; simp) h
    · refine constantInit_error ?_
      unfold concentrationValue
      rw [if_neg h, npAnyOf_iff.2 ⟨c, hc, by rw [h1]; simpa [Flt.lt] using h2⟩]
      rfl

/-- Sample sizes that are all zero are accepted, and the second moment is NaN. -/
theorem C86_concentration_zero_refuted : ∃ z, concentrationConstant ⟨[2], fun _ => .fin 0⟩ =
    .ok ⟨⟨[2], fun _ => .fin 0⟩, [[2], []], [], [⟨[2], fun _ => .fin 0⟩, z]⟩ ∧ ∀ c, ValidIn [] c → z.get c = .nan := by
  obtain ⟨z, h1, -, h3⟩ := concentration_ok (P := []) (K := 2) (a := ⟨[2], fun _ => .fin 0⟩) rfl (npAnyOf_false.2 fun c _ => by simp [Flt.lt])
  refine ⟨z, h1, fun c hc => ?_⟩
  rw [h3 c hc]
  have e1 : gammalnFlt (Flt.sum (Arr.lastAxis ⟨[2], fun _ => Flt.fin 0⟩ c)) = .posInf := by
    have : Flt.sum (Arr.lastAxis ⟨[2], fun _ => Flt.fin 0⟩ c) = .fin (0 + (0 + 0)) := rfl
    rw [this]; simp [gammalnFlt]
  have e2 : Flt.sum ((Arr.map gammalnFlt ⟨[2], fun _ => Flt.fin 0⟩).lastAxis c) = .posInf := by
    show gammalnFlt (.fin 0) + (gammalnFlt (.fin 0) + .fin 0) = .posInf
    simp only [gammalnFlt, if_true]
    rfl
  rw [e1, e2]
  rfl

/-! ### Counts and categories -/

/-- **C86** Integers in the range of the categories: one at the category, zero elsewhere; the categories are a new last axis. -/
theorem C86_categorical (K : Nat) (x : Arr Int) (hx : ∀ c, ValidIn x.shape c → 0 ≤ x.get c ∧ x.get c < K) :
    ∃ u0, categoricalConstant K (.int x) = .ok ⟨.int x, [[K]], x.shape, [u0]⟩ ∧ MomentsFit x.shape [[K]] [u0] x.shape [[K]] ∧
      ∀ c, ValidIn x.shape c → ∀ k < K, u0.get (joinC 1 (fun _ => k) c) = if (k : Int) = x.get c then 1 else 0 := by
  obtain ⟨u, h1, h2, h3, -⟩ := C26_one_hot (α := ℝ) K x hx
  exact ⟨u, constantInit_ok (e := [K]) (by rw [h1]; rfl) h2 rfl, momentsFit_one h2, h3⟩

theorem C86_categorical_raises (K : Nat) : (∀ sh, categoricalConstant K (.other sh) = .error .valueError) ∧
    ∀ x : Arr Int, (∃ c, ValidIn x.shape c ∧ (x.get c < 0 ∨ (K : Int) ≤ x.get c)) → categoricalConstant K (.int x) = .error .valueError := by
  refine ⟨fun sh => constantInit_error (by rw [(C26_rejected ℝ K).1 sh]; rfl), fun x ⟨c, hc, h⟩ => constantInit_error ?_⟩
  rw [(C26_rejected ℝ K).2 x fun hx => by have := hx c hc; omega]
  rfl

/-- **C86** Integers as a Poisson parent: the counts themselves, every axis a plate -/
theorem C86_poisson (t : IntType) (x : Arr Int) :
    ∃ u0, poissonConstant (.int t x) = .ok ⟨.int t x, [[]], x.shape, [u0]⟩ ∧ MomentsFit x.shape [[]] [u0] x.shape [[]] ∧
      ∀ c, u0.get c = .fin (x.get c) :=
  ⟨x.map intFlt, constantInit_ok (e := []) (by rfl) (by simp [Arr.map]) rfl, momentsFit_one (by simp [Arr.map]), fun _ => rfl⟩

theorem C86_poisson_raises (x : Arr Flt) : poissonConstant (.float x) = .error .valueError := constantInit_error rfl

/-- Counts that are not negative as a multinomial parent.  The plates and moments are right, but the dimension is the tuple `(K,)` and not
the number of categories. -/
theorem C86_multinomial_partial (t : IntType) (x : Arr Int) (K : Nat) (hx : x.shape = P ++ [K]) (h0 : ∀ c, ValidIn x.shape c → 0 ≤ x.get c) :
    ∃ u0, multinomialConstant (.int t x) = .ok ⟨.int t x, [[.tuple [K]]], P, [u0]⟩ ∧ u0.shape = P ++ [K] ∧ ∀ c, u0.get c = .fin (x.get c) := by
  have hK : axisLen x.shape 0 = K := by rw [hx]; simp [axisLen]
  refine ⟨x.map intFlt, ?_, hx, fun _ => rfl⟩
  unfold multinomialConstant
  rw [if_neg (by show ¬ x.shape.length < 1; rw [hx]; simp)]
  show constantInit [[DimVal.tuple [axisLen x.shape 0]]] _ _ = _
  rw [hK]
  refine constantInit_ok (e := [K]) ?_ hx rfl
  show (if npAnyOf x (fun v => v < 0) then _ else _) = _
  rw [npAnyOf_false.2 fun c hc => by simpa using h0 c hc]
  rfl

/-- No array makes a multinomial constant with the dimensions `((K,),)`. -/
theorem C86_multinomial_dims_refuted (x : Vals) (node : ConstNode Vals DimVal Flt) (h : multinomialConstant x = .ok node) (K : Nat) :
    node.dims ≠ [[.num K]] := by
  unfold multinomialConstant at h
  split_ifs at h
  unfold constantInit at h
  cases hv : multinomialValue x with
  | error e => rw [hv] at h; cases h
  | ok v =>
    rw [hv] at h
    cases v with
    | nil => cases h
    | cons a l => cases h; simp

/-! ### New values -/

theorem checkShapes_ok {ds : List (List Nat)} {v : List (Arr α)} (h : List.Forall₂ (fun a d => BroadcastsTo a.shape (P ++ d)) v ds) :
    checkMomentShapes P ds v = .ok () := by
  induction h with
  | nil => rfl
  | cons h _ ih => simp only [checkMomentShapes, (isShapeSubset_true _ _).2 h, bind, Except.bind, if_true, ih]

/-- **C86** `set_value` with moments that fit the plates replaces the moments and nothing else. -/
theorem C86_set_value (u : χ → Except PyErr (List (Arr α))) (node : ConstNode χ Nat α) (x : χ) {v : List (Arr α)} (hv : u x = .ok v)
    (hfit : List.Forall₂ (fun a d => BroadcastsTo a.shape (node.plates ++ d)) v node.dims) :
    constantSetValue u node x = (⟨node.x, node.dims, node.plates, v⟩, .ok ()) := by
  simp only [constantSetValue, hv, checkShapes_ok hfit]

/-- A value whose moments cannot be computed leaves the node as it was. -/
theorem C86_set_value_rejected (u : χ → Except PyErr (List (Arr α))) (node : ConstNode χ Nat α) (x : χ) {e : PyErr} (hv : u x = .error e) :
    constantSetValue u node x = (node, .error e) := by
  simp only [constantSetValue, hv]

theorem checkShapes_error {ds : List (List Nat)} {v : List (Arr α)} (hlen : v.length = ds.length)
    (h : ¬ List.Forall₂ (fun a d => BroadcastsTo a.shape (P ++ d)) v ds) : checkMomentShapes P ds v = .error .valueError := by
  induction ds generalizing v with
  | nil => exact absurd (List.length_eq_zero_iff.1 hlen ▸ .nil) h
  | cons d ds ih =>
    cases v with
    | nil => simp at hlen
    | cons a v =>
      by_cases ha : BroadcastsTo a.shape (P ++ d)
      · simp only [checkMomentShapes, (isShapeSubset_true _ _).2 ha, bind, Except.bind, if_true]
        exact ih (by simpa using hlen) fun h' => h (.cons ha h')
      · simp only [checkMomentShapes, (C03_is_shape_subset_iff _ _).2 ha, bind, Except.bind, throw, throwThe, MonadExceptOf.throw]
        rfl

/-- Moments that do not fit are reported, but stay in the node. -/
theorem C86_set_value_raises (u : χ → Except PyErr (List (Arr α))) (node : ConstNode χ Nat α) (x : χ) {v : List (Arr α)} (hv : u x = .ok v)
    (hlen : v.length = node.dims.length) (hfit : ¬ List.Forall₂ (fun a d => BroadcastsTo a.shape (node.plates ++ d)) v node.dims) :
    constantSetValue u node x = (⟨node.x, node.dims, node.plates, v⟩, .error .valueError) := by
  simp only [constantSetValue, hv, checkShapes_error hlen hfit]

/-- A constant over two plates, given three numbers, raises `ValueError` and then holds moments that do not fit its plates. -/
theorem C86_set_value_refuted : ∃ (node : ConstNode (Arr ℝ) Nat ℝ) (x : Arr ℝ), gaussianConstant 0 ⟨[2], fun _ => 1⟩ = .ok node ∧
    (constantSetValue (gaussianValue 0) node x).2 = .error .valueError ∧
    ¬ List.Forall₂ (fun a d => BroadcastsTo a.shape (node.plates ++ d)) (constantSetValue (gaussianValue 0) node x).1.u node.dims := by
  obtain ⟨u0, u1, h, -⟩ := C86_gaussian (P := [2]) (s := []) ⟨[2], fun _ => 1⟩ rfl
  obtain ⟨Y, y1, -⟩ := C79_outer (A := (⟨[3], fun _ => 1⟩ : Arr ℝ)) (B := ⟨[3], fun _ => 1⟩) (pa := [3]) (pb := [3]) (s := []) (t := []) rfl rfl rfl
    (isBroadcast_self [3])
  have hv : gaussianValue 0 ⟨[3], fun _ => 1⟩ = .ok [⟨[3], fun _ => 1⟩, Y] := by
    unfold gaussianValue
    rw [atleast_enough (Nat.zero_le _)]
    simp only [show linOuter _ _ 0 = _ from y1, bind, Except.bind, pure, Except.pure]
  have hno : ¬ List.Forall₂ (fun (a : Arr ℝ) d => BroadcastsTo a.shape ([2] ++ d)) [⟨[3], fun _ => 1⟩, Y] [[], [] ++ []] := by
    rintro (_ | ⟨h, -⟩)
    have := h.2 0
    simp [axisLen] at this
  refine ⟨_, ⟨[3], fun _ => 1⟩, h, ?_⟩
  rw [C86_set_value_raises (gaussianValue 0) _ _ hv rfl hno]
  exact ⟨rfl, hno⟩

/-- After an accepted new value, `random` still returns the old one. -/
theorem C86_random_refuted : ∃ (node : ConstNode (Arr ℝ) Nat ℝ) (x : Arr ℝ), gaussianConstant 0 ⟨[], fun _ => 1⟩ = .ok node ∧
    (constantSetValue (gaussianValue 0) node x).2 = .ok () ∧ x.get (fun _ => 0) = 5 ∧
    (constantRandom (constantSetValue (gaussianValue 0) node x).1).get (fun _ => 0) = 1 := by
  obtain ⟨u0, u1, h, -⟩ := C86_gaussian (P := []) (s := []) ⟨[], fun _ => 1⟩ rfl
  obtain ⟨Y, y1, y2, -⟩ := C79_outer (A := (⟨[], fun _ => 5⟩ : Arr ℝ)) (B := ⟨[], fun _ => 5⟩) (pa := []) (pb := []) (s := []) (t := []) rfl rfl rfl
    (isBroadcast_self [])
  have hv : gaussianValue 0 ⟨[], fun _ => 5⟩ = .ok [⟨[], fun _ => 5⟩, Y] := by
    unfold gaussianValue
    rw [atleast_enough (Nat.zero_le _)]
    simp only [show linOuter _ _ 0 = _ from y1, bind, Except.bind, pure, Except.pure]
  refine ⟨_, ⟨[], fun _ => 5⟩, h, ?_⟩
  have hfit : List.Forall₂ (fun (a : Arr ℝ) d => BroadcastsTo a.shape ([] ++ d)) [⟨[], fun _ => 5⟩, Y] [[], [] ++ []] :=
    .cons (BroadcastsTo_refl []) (.cons (by rw [y2]; exact BroadcastsTo_refl []) .nil)
  rw [C86_set_value (gaussianValue 0) _ _ hv hfit]
  exact ⟨rfl, rfl, rfl⟩

/-! ### The hypotheses are met -/

/-- three shapes -/
example : ∃ u0 u1, gammaPriorConstant ⟨[3], fun c => c 0 + 1⟩ = .ok ⟨⟨[3], fun c => c 0 + 1⟩, [[], []], [3], [u0, u1]⟩ := by
  obtain ⟨u0, u1, h, -⟩ := C86_gamma_prior ⟨[3], fun c => c 0 + 1⟩ (fun c _ => by positivity)
  exact ⟨u0, u1, h⟩

example : gammaPriorConstant ⟨[2], fun c => c 0⟩ = .error .valueError :=
  C86_gamma_prior_raises _ ⟨fun _ => 0, zero_valid 1, by simp⟩

example : ∃ u0 u1, gammaConstant ⟨[3], fun c => .fin (c 0 + 1)⟩ = .ok ⟨⟨[3], fun c => .fin (c 0 + 1)⟩, [[], []], [3], [u0, u1]⟩ := by
  obtain ⟨u0, u1, h, -⟩ := C86_gamma ⟨[3], fun c => .fin (c 0 + 1)⟩ (fun c => c 0 + 1) (fun c _ => ⟨rfl, by positivity⟩)
  exact ⟨u0, u1, h⟩

example : gammaConstant ⟨[2], fun c => .fin (c 0 - 1)⟩ = .error .valueError :=
  C86_gamma_raises _ (-1) ⟨fun _ => 0, zero_valid 1, by norm_num, by norm_num⟩

/-- four plates of vectors of length three -/
example : ∃ u0 u1, gaussianConstant 1 ⟨[4, 3], fun c => c 0 + c 1⟩ = .ok ⟨⟨[4, 3], fun c => c 0 + c 1⟩, [[3], [3, 3]], [4], [u0, u1]⟩ := by
  obtain ⟨u0, u1, h, -⟩ := C86_gaussian (P := [4]) (s := [3]) ⟨[4, 3], fun c => c 0 + c 1⟩ rfl
  exact ⟨u0, u1, h⟩

/-- one vector with two precisions -/
example : ∃ u0 u1 u2 u3, gaussianGammaConstant 1 (⟨[3], fun c => c 0⟩, ⟨[2], fun c => c 0 + 1⟩) =
    .ok ⟨(⟨[3], fun c => c 0⟩, ⟨[2], fun c => c 0 + 1⟩), [[.num 3], [.num 3, .num 3], [], []], [2], [u0, u1, u2, u3]⟩ := by
  obtain ⟨u0, u1, u2, u3, h, -⟩ := C86_gaussian_gamma_partial (P := [2]) (Q := []) (s := [3]) ⟨[3], fun c => c 0⟩ ⟨[2], fun c => c 0 + 1⟩
    (by simp) rfl ((broadcastedShape_ok _ _).1 (by decide))
  exact ⟨u0, u1, u2, u3, h⟩

example : ∃ u0 u1, wishartPriorConstant 2 ⟨[3], fun c => c 0 + 2⟩ = .ok ⟨⟨[3], fun c => c 0 + 2⟩, [[], []], [3], [u0, u1]⟩ := by
  obtain ⟨u0, u1, h, -⟩ := C86_wishart_prior 2 ⟨[3], fun c => c 0 + 2⟩ (fun c _ => by
    have : (0 : ℝ) ≤ c 0 := Nat.cast_nonneg _
    push_cast; linarith)
  exact ⟨u0, u1, h⟩

example : wishartPriorConstant 3 ⟨[2], fun _ => 2⟩ = .error .valueError :=
  C86_wishart_prior_raises 3 _ ⟨fun _ => 0, zero_valid 1, by norm_num⟩

/-- three matrices over two axes -/
example : ∃ u0 u1, wishartConstant 2 demoA = .ok ⟨demoA, [[2, 2, 2, 2], []], [3], [u0, u1]⟩ := by
  obtain ⟨u0, u1, h, -⟩ := C86_wishart (P := [3]) (s := [2, 2]) demoA rfl fun p hp => demoA_posDef hp
  exact ⟨u0, u1, h⟩

/-- the zero matrix -/
example : wishartConstant 1 ⟨[2, 2], fun _ => 0⟩ = .error .exception := by
  have h0 : ∀ p, matrixOf (⟨[2, 2], fun _ => 0⟩ : Arr ℝ) p [2] [2] = 0 := fun p => rfl
  refine C86_wishart_not_posdef (P := []) (s := [2]) _ (by simp) rfl (fun p _ => by rw [h0]; exact isSymm_zero) ⟨[], by decide, fun h => ?_⟩
  rw [h0] at h
  have := h.diag_pos (i := ⟨[0], by decide⟩)
  simp at this

/-- an array that does not end with a square matrix -/
example : wishartConstant 1 ⟨[4, 2, 3], fun _ => 1⟩ = .error .valueError := by
  refine C86_wishart_wrong_shape _ 1 one_pos ?_
  rintro ⟨P, s, hs, h⟩
  obtain ⟨a, rfl⟩ := List.length_eq_one_iff.1 hs
  have := congrArg List.reverse h
  simp at this
  omega

/-- probabilities with the sum two -/
example : dirichletConstant ⟨[2], fun _ => .fin 1⟩ = .error .valueError := by
  refine C86_dirichlet_raises (P := []) _ 2 rfl ?_
  rintro ⟨q, h1, h2⟩
  have hv : ValidIn [] (fun _ => 0) := coord_valid (s := []) (i := []) (by simp [indices])
  have a := (h1 _ hv 0 (by norm_num)).1
  have b := (h1 _ hv 1 (by norm_num)).1
  have c := h2 _ hv
  injection a with a
  injection b with b
  rw [Finset.sum_range_succ, Finset.sum_range_one, ← a, ← b] at c
  norm_num at c

/-- three pairs of probabilities -/
example : ∃ u0, dirichletConstant ⟨[3, 2], fun _ => .fin (1 / 2)⟩ = .ok ⟨⟨[3, 2], fun _ => .fin (1 / 2)⟩, [[2]], [3], [u0]⟩ := by
  obtain ⟨u0, h, -⟩ := C86_dirichlet (P := [3]) ⟨[3, 2], fun _ => .fin (1 / 2)⟩ 2 rfl (fun _ _ => 1 / 2)
    (fun c _ => ⟨fun k => ⟨rfl, by norm_num, by norm_num⟩, by norm_num⟩)
  exact ⟨u0, h⟩

example : ∃ u0, betaConstant ⟨[3], fun _ => .fin (1 / 4)⟩ = .ok ⟨⟨[3], fun _ => .fin (1 / 4)⟩, [[2]], [3], [u0]⟩ := by
  obtain ⟨u0, h, -⟩ := C86_beta ⟨[3], fun _ => .fin (1 / 4)⟩ (fun _ => 1 / 4) (fun c _ => ⟨rfl, by norm_num, by norm_num⟩)
  exact ⟨u0, h⟩

example : betaConstant ⟨[3], fun _ => .fin 2⟩ = .error .valueError :=
  C86_beta_raises _ fun h => by
    obtain ⟨r, h1, -, h2⟩ := h (fun _ => 0) fun k => by rcases k with _ | k <;> simp [axisLen]
    cases h1
    norm_num at h2

example : ∃ u0 u1, concentrationConstant ⟨[3, 2], fun c => .fin (c 0 + 1)⟩ =
    .ok ⟨⟨[3, 2], fun c => .fin (c 0 + 1)⟩, [[2], []], [3], [u0, u1]⟩ := by
  obtain ⟨u0, u1, h, -⟩ := C86_concentration_partial (P := [3]) ⟨[3, 2], fun c => .fin (c 0 + 1)⟩ 2 (by norm_num) rfl (fun _ k => k + 1)
    (fun c _ k _ => ⟨rfl, by positivity⟩)
  exact ⟨u0, u1, h⟩

example : concentrationConstant ⟨[2], fun c => .fin (c 0 - 1)⟩ = .error .valueError :=
  C86_concentration_raises _ (-1) (.inr ⟨fun _ => 0, zero_valid 1, by norm_num, by norm_num⟩)

example : ∃ u0, categoricalConstant 3 (.int ⟨[5], fun _ => 2⟩) = .ok ⟨.int ⟨[5], fun _ => 2⟩, [[3]], [5], [u0]⟩ := by
  obtain ⟨u0, h, -⟩ := C86_categorical 3 ⟨[5], fun _ => 2⟩ (fun c _ => by norm_num)
  exact ⟨u0, h⟩

example : categoricalConstant 3 (.int ⟨[2], fun _ => 3⟩) = .error .valueError :=
  (C86_categorical_raises 3).2 _ ⟨fun _ => 0, zero_valid 1, .inr (by norm_num)⟩

example : ∃ u0, multinomialConstant (.int int64 ⟨[5, 2], fun _ => 7⟩) = .ok ⟨.int int64 ⟨[5, 2], fun _ => 7⟩, [[.tuple [2]]], [5], [u0]⟩ := by
  obtain ⟨u0, h, -⟩ := C86_multinomial_partial (P := [5]) int64 ⟨[5, 2], fun _ => 7⟩ 2 rfl (fun c _ => by norm_num)
  exact ⟨u0, h⟩

end Verif
