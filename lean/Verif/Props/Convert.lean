import Verif.Model.Convert
import Verif.Model.MarkovChain
import Verif.Spec.Density
import Verif.Spec.Shape
import Mathlib.Tactic.Ring
import Mathlib.Tactic.NormNum

/-!
# C19: conversions between moment types are adjoint

For a conversion with moments `u = c(u_1, ..., u_n)` and a message `m` to it, the message to parent `i` is the coefficient
of `u_i` in `⟨m, u⟩`.
-/

namespace Verif
open Spec

/-! ### Complement and categorical moments -/

theorem C19_complement (m : Fin 2 → ℝ) : IsCoefficient (fun u => m ⬝ᵥ complementMoments u) (complementMsg m) := by
  refine ⟨0, fun u => ?_⟩
  simp only [dotProduct, Fin.sum_univ_two, complementMoments, complementMsg]
  have e0 : Fin.rev (0 : Fin 2) = 1 := rfl
  have e1 : Fin.rev (1 : Fin 2) = 0 := rfl
  rw [e0, e1]
  ring

/-- The moments `[log p, log (1-p)]` of `p` become those of `1 - p`. -/
theorem C19_complement_value (p : ℝ) :
    complementMoments ![Real.log p, Real.log (1 - p)] = ![Real.log (1 - p), Real.log (1 - (1 - p))] := by
  funext i
  fin_cases i <;> simp [complementMoments]

theorem C19_categorical_to_bernoulli (m : ℝ) :
    IsCoefficient (fun u => m * catToBernoulli u) (catToBernoulliMsg m) := by
  refine ⟨0, fun u => ?_⟩
  simp [dotProduct, Fin.sum_univ_two, catToBernoulli, catToBernoulliMsg]

/-- For a message with a full time axis the message to the chain exists and is the coefficient of the chain's moments,
after the unit axis of the earlier state is broadcast. -/
theorem C19_markov_chain_to_categorical_partial {N K : Nat} (m : List (Fin K → ℝ)) (h : m.length = N + 1) :
    ∃ m0 m1, cmcMarginalsMsg (some m) = .ok (m0, m1) ∧ m1.length = N ∧
      IsCoefficient (fun u : CMCIx N K → ℝ => ∑ t : Fin (N + 1), m[t.1]'(h.symm ▸ t.2) ⬝ᵥ cmcMarginals u t)
        (Sum.elim m0 fun p => (m1.getD p.1 0) p.2.2) := by
  match m, h with
  | m0 :: m1, h =>
    have h1 : m1.length = N := by simpa using h
    refine ⟨m0, m1, rfl, h1, 0, fun u => ?_⟩
    beta_reduce
    rw [Fin.sum_univ_succ]
    simp only [dotProduct, Fintype.sum_sum_type, Sum.elim_inl, Sum.elim_inr, Fintype.sum_prod_type, add_zero, cmcMarginals,
      Fin.cons_zero, Fin.cons_succ]
    refine congrArg₂ (· + ·) rfl (Finset.sum_congr rfl fun t _ => ?_)
    rw [Finset.sum_comm]
    refine Finset.sum_congr rfl fun j _ => ?_
    rw [Finset.mul_sum]
    refine Finset.sum_congr rfl fun i _ => ?_
    rw [List.getD_eq_getElem (hn := h1 ▸ t.2)]
    rfl

/-- A message that does not depend on time may have a unit time axis, or none.  In the first case the message to the chain
has an empty time axis, which can not be broadcast to the transitions of a chain that has any; in the second case the code
raises. -/
theorem C19_markov_chain_to_categorical_refuted {K : Nat} (m0 : Fin K → ℝ) :
    (∃ m1, cmcMarginalsMsg (some [m0]) = .ok (m0, m1) ∧
      ∀ N, 0 < N → ¬ BroadcastsTo [m1.length, 1, K] [N, K, K]) ∧
    cmcMarginalsMsg (K := K) none = .error .indexError := by
  refine ⟨⟨[], rfl, fun N hN h => ?_⟩, rfl⟩
  have h2 := h.2 2
  have e1 : axisLen [([] : List (Fin K → ℝ)).length, 1, K] 2 = 0 := rfl
  have e2 : axisLen [N, K, K] 2 = N := rfl
  omega

/-- The moments are those of `cmcToCategorical`, which C28 proves to be the marginals of all times. -/
theorem cmcMarginals_eq {N K : Nat} (z0 : Fin K → ℝ) (zz : Nat → Fin K → Fin K → ℝ) (t : Fin (N + 1)) :
    cmcMarginals (Sum.elim z0 fun p : Fin N × Fin K × Fin K => zz p.1 p.2.1 p.2.2) t = cmcToCategorical z0 zz t := by
  refine Fin.cases rfl (fun n => ?_) t
  rfl

example : (cmcMarginalsMsg (some [![1, 2], ![3, 4], ![5, 6]])).toOption.map (fun p => p.2.length) = some 2 := rfl

/-! ### Gaussian, gamma and Wishart -/

section
variable {ι : Type*} [Fintype ι] [DecidableEq ι]

omit [DecidableEq ι] in
theorem g_dot (m u : GIx ι → ℝ) : m ⬝ᵥ u = ∑ i, g0 m i * g0 u i + ∑ i, ∑ j, g1 m i j * g1 u i j := by
  simp only [dotProduct, Fintype.sum_sum_type, Fintype.sum_prod_type, g0, g1]

omit [DecidableEq ι] in
theorem gg_dot (m u : GGIx ι → ℝ) :
    m ⬝ᵥ u = ∑ i, gg0 m i * gg0 u i + ∑ i, ∑ j, gg1 m i j * gg1 u i j + gg2 m * gg2 u + gg3 m * gg3 u := by
  simp only [dotProduct, Fintype.sum_sum_type, Fintype.sum_prod_type, Finset.univ_unique, Finset.sum_singleton, gg0, gg1,
    gg2, gg3]
  have e : (default : Unit) = () := rfl
  rw [e]
  ring

omit [DecidableEq ι] in
theorem gw_dot (m u : GWIx ι → ℝ) :
    m ⬝ᵥ u = ∑ i, gw0 m i * gw0 u i + gw1 m * gw1 u + ∑ i, ∑ j, gw2 m i j * gw2 u i j + gw3 m * gw3 u := by
  simp only [dotProduct, Fintype.sum_sum_type, Fintype.sum_prod_type, Finset.univ_unique, Finset.sum_singleton, gw0, gw1,
    gw2, gw3]
  have e : (default : Unit) = () := rfl
  rw [e]
  ring

omit [DecidableEq ι] in
theorem w_dot (m u : WIx ι → ℝ) : m ⬝ᵥ u = ∑ i, ∑ j, w0 m i j * w0 u i j + w1 m * w1 u := by
  simp only [dotProduct, Fintype.sum_sum_type, Fintype.sum_prod_type, Finset.univ_unique, Finset.sum_singleton, w0, w1]

omit [DecidableEq ι] in
theorem C19_to_gaussian_gamma (m : GGIx ι → ℝ) :
    IsCoefficient (fun u => m ⬝ᵥ toGaussianGamma u) (toGaussianGammaMsg m) := by
  refine ⟨gg2 m, fun u => ?_⟩
  beta_reduce
  rw [gg_dot, g_dot]
  change _ + _ + gg2 m * 1 + gg3 m * 0 = _
  rw [mul_one, mul_zero, add_zero]
  rfl

omit [DecidableEq ι] in
theorem C19_wrap_gaussian_gamma_mean (m : GGIx ι → ℝ) (ua : Fin 2 → ℝ) :
    IsCoefficient (fun uX => m ⬝ᵥ wrapGG uX ua) (wrapGGMsgX m ua) := by
  refine ⟨gg3 m * ua 1, fun uX => ?_⟩
  beta_reduce
  rw [gg_dot, gg_dot]
  change ∑ i, gg0 m i * (gg0 uX i * ua 0) + ∑ i, ∑ j, gg1 m i j * (gg1 uX i j * ua 0) + gg2 m * (gg2 uX * ua 0)
    + gg3 m * (gg3 uX + ua 1)
    = ∑ i, gg0 m i * ua 0 * gg0 uX i + ∑ i, ∑ j, gg1 m i j * ua 0 * gg1 uX i j + gg2 m * ua 0 * gg2 uX + gg3 m * gg3 uX
      + gg3 m * ua 1
  rw [Finset.sum_congr rfl fun i _ => show gg0 m i * (gg0 uX i * ua 0) = gg0 m i * ua 0 * gg0 uX i by ring,
    Finset.sum_congr rfl fun i _ => Finset.sum_congr rfl fun j _ =>
      show gg1 m i j * (gg1 uX i j * ua 0) = gg1 m i j * ua 0 * gg1 uX i j by ring]
  ring

omit [DecidableEq ι] in
theorem C19_wrap_gaussian_gamma_precision (m uX : GGIx ι → ℝ) :
    IsCoefficient (fun ua => m ⬝ᵥ wrapGG uX ua) (wrapGGMsgA m uX) := by
  refine ⟨gg3 m * gg3 uX, fun ua => ?_⟩
  beta_reduce
  rw [gg_dot]
  simp only [dotProduct, Fin.sum_univ_two]
  change ∑ i, gg0 m i * (gg0 uX i * ua 0) + ∑ i, ∑ j, gg1 m i j * (gg1 uX i j * ua 0) + gg2 m * (gg2 uX * ua 0)
    + gg3 m * (gg3 uX + ua 1)
    = (∑ i, gg0 m i * gg0 uX i + ∑ i, ∑ j, gg1 m i j * gg1 uX i j + gg2 m * gg2 uX) * ua 0 + gg3 m * ua 1 + gg3 m * gg3 uX
  simp only [← mul_assoc, ← Finset.sum_mul]
  ring

omit [DecidableEq ι] in
/-- The mean of the precision must be symmetric, as the moments of every Wishart node are. -/
theorem C19_wrap_gaussian_wishart_mean (m : GWIx ι → ℝ) (uL : WIx ι → ℝ) (hs : (w0 uL).transpose = w0 uL) :
    IsCoefficient (fun uX => m ⬝ᵥ wrapGW uX uL) (wrapGWMsgX m uL) := by
  refine ⟨gw3 m * w1 uL, fun uX => ?_⟩
  beta_reduce
  rw [gw_dot, gg_dot]
  change ∑ i, gw0 m i * ∑ j, w0 uL i j * gg0 uX j + gw1 m * (∑ i, ∑ j, w0 uL i j * gg1 uX i j)
      + ∑ i, ∑ j, gw2 m i j * (gg2 uX * w0 uL i j) + gw3 m * (w1 uL + (Fintype.card ι : ℝ) * gg3 uX)
    = ∑ i, (∑ j, w0 uL i j * gw0 m j) * gg0 uX i + ∑ i, ∑ j, w0 uL i j * gw1 m * gg1 uX i j
      + (∑ i, ∑ j, w0 uL i j * gw2 m i j) * gg2 uX + (Fintype.card ι : ℝ) * gw3 m * gg3 uX + gw3 m * w1 uL
  have hs' : ∀ i j, w0 uL i j = w0 uL j i := fun i j => congrFun (congrFun hs.symm i) j
  have e1 : ∑ i, gw0 m i * ∑ j, w0 uL i j * gg0 uX j = ∑ i, (∑ j, w0 uL i j * gw0 m j) * gg0 uX i := by
    simp only [Finset.mul_sum, Finset.sum_mul]
    rw [Finset.sum_comm]
    refine Finset.sum_congr rfl fun i _ => Finset.sum_congr rfl fun j _ => ?_
    rw [hs' j i]
    ring
  have e2 : gw1 m * (∑ i, ∑ j, w0 uL i j * gg1 uX i j) = ∑ i, ∑ j, w0 uL i j * gw1 m * gg1 uX i j := by
    simp only [Finset.mul_sum]
    exact Finset.sum_congr rfl fun i _ => Finset.sum_congr rfl fun j _ => by ring
  have e3 : ∑ i, ∑ j, gw2 m i j * (gg2 uX * w0 uL i j) = (∑ i, ∑ j, w0 uL i j * gw2 m i j) * gg2 uX := by
    simp only [Finset.sum_mul]
    exact Finset.sum_congr rfl fun i _ => Finset.sum_congr rfl fun j _ => by ring
  rw [e1, e2, e3]
  ring

omit [DecidableEq ι] in
/-- The message to the precision is symmetrised: it is the coefficient of all symmetric precisions. -/
theorem C19_wrap_gaussian_wishart_precision (m : GWIx ι → ℝ) (uX : GGIx ι → ℝ) :
    ∃ r, ∀ uL : WIx ι → ℝ, (w0 uL).transpose = w0 uL → m ⬝ᵥ wrapGW uX uL = wrapGWMsgL m uX ⬝ᵥ uL + r := by
  refine ⟨gw3 m * ((Fintype.card ι : ℝ) * gg3 uX), fun uL hs => ?_⟩
  rw [gw_dot, w_dot]
  change ∑ i, gw0 m i * ∑ j, w0 uL i j * gg0 uX j + gw1 m * (∑ i, ∑ j, w0 uL i j * gg1 uX i j)
      + ∑ i, ∑ j, gw2 m i j * (gg2 uX * w0 uL i j) + gw3 m * (w1 uL + (Fintype.card ι : ℝ) * gg3 uX)
    = ∑ i, ∑ j, (0.5 * (gg0 uX i * gw0 m j) + 0.5 * (gw0 m i * gg0 uX j) + gg1 uX i j * gw1 m + gg2 uX * gw2 m i j)
        * w0 uL i j + gw3 m * w1 uL + gw3 m * ((Fintype.card ι : ℝ) * gg3 uX)
  have hs' : ∀ i j, w0 uL i j = w0 uL j i := fun i j => congrFun (congrFun hs.symm i) j
  have e1 : ∑ i, ∑ j, gg0 uX i * gw0 m j * w0 uL i j = ∑ i, ∑ j, gw0 m i * gg0 uX j * w0 uL i j := by
    rw [Finset.sum_comm]
    refine Finset.sum_congr rfl fun i _ => Finset.sum_congr rfl fun j _ => ?_
    rw [hs' j i]
    ring
  have e2 : ∑ i, ∑ j, (0.5 * (gg0 uX i * gw0 m j) + 0.5 * (gw0 m i * gg0 uX j) + gg1 uX i j * gw1 m + gg2 uX * gw2 m i j)
        * w0 uL i j
      = 0.5 * (∑ i, ∑ j, gg0 uX i * gw0 m j * w0 uL i j) + 0.5 * (∑ i, ∑ j, gw0 m i * gg0 uX j * w0 uL i j)
        + gw1 m * (∑ i, ∑ j, w0 uL i j * gg1 uX i j) + ∑ i, ∑ j, gw2 m i j * (gg2 uX * w0 uL i j) := by
    simp only [Finset.mul_sum, ← Finset.sum_add_distrib]
    exact Finset.sum_congr rfl fun i _ => Finset.sum_congr rfl fun j _ => by ring
  have e3 : ∑ i, gw0 m i * ∑ j, w0 uL i j * gg0 uX j = ∑ i, ∑ j, gw0 m i * gg0 uX j * w0 uL i j := by
    simp only [Finset.mul_sum]
    exact Finset.sum_congr rfl fun i _ => Finset.sum_congr rfl fun j _ => by ring
  rw [e2, e1, e3]
  ring

/-- Without symmetry the message to the mean is not adjoint. -/
theorem C19_wrap_gaussian_wishart_needs_symmetry :
    ∃ (m : GWIx (Fin 2) → ℝ) (uL : WIx (Fin 2) → ℝ),
      ¬ IsCoefficient (fun uX => m ⬝ᵥ wrapGW uX uL) (wrapGWMsgX m uL) := by
  refine ⟨mkGW ![1, 0] 0 0 0, mkW !![0, 1; 0, 0] 0, fun ⟨r, h⟩ => ?_⟩
  have h0 := h 0
  have h1 := h (mkGG ![0, 1] 0 0 0)
  beta_reduce at h0 h1
  rw [gw_dot, gg_dot] at h0 h1
  simp [wrapGW, wrapGWMsgX, gw0, gw1, gw2, gw3, gg0, gg1, gg2, gg3, w0, w1, mkGW, mkGG, mkW, Fin.sum_univ_two,
    Matrix.mulVec, dotProduct] at h0 h1
  rw [← h0] at h1
  norm_num at h1

omit [DecidableEq ι] in
theorem C19_scale_wishart_matrix (m : WIx ι → ℝ) (ua : Fin 2 → ℝ) :
    IsCoefficient (fun uL => m ⬝ᵥ scaleWishart uL ua) (scaleWishartMsgL m ua) := by
  refine ⟨w1 m * ((Fintype.card ι : ℝ) * ua 1), fun uL => ?_⟩
  beta_reduce
  rw [w_dot, w_dot]
  change ∑ i, ∑ j, w0 m i j * (w0 uL i j * ua 0) + w1 m * (w1 uL + (Fintype.card ι : ℝ) * ua 1)
    = ∑ i, ∑ j, w0 m i j * ua 0 * w0 uL i j + w1 m * w1 uL + w1 m * ((Fintype.card ι : ℝ) * ua 1)
  rw [Finset.sum_congr rfl fun i _ => Finset.sum_congr rfl fun j _ =>
    show w0 m i j * (w0 uL i j * ua 0) = w0 m i j * ua 0 * w0 uL i j by ring]
  ring

omit [DecidableEq ι] in
theorem C19_scale_wishart_scale (m uL : WIx ι → ℝ) :
    IsCoefficient (fun ua => m ⬝ᵥ scaleWishart uL ua) (scaleWishartMsgA m uL) := by
  refine ⟨w1 m * w1 uL, fun ua => ?_⟩
  beta_reduce
  rw [w_dot]
  simp only [dotProduct, Fin.sum_univ_two]
  change ∑ i, ∑ j, w0 m i j * (w0 uL i j * ua 0) + w1 m * (w1 uL + (Fintype.card ι : ℝ) * ua 1)
    = (∑ i, ∑ j, w0 m i j * w0 uL i j) * ua 0 + w1 m * (Fintype.card ι : ℝ) * ua 1 + w1 m * w1 uL
  simp only [← mul_assoc, ← Finset.sum_mul]
  ring

/-- The moments of fixed values are those of the wrapped fixed value: `[Λ x, xᵀ Λ x, Λ, log det Λ]`. -/
theorem C19_wrap_fixed (x : ι → ℝ) (L : Matrix ι ι ℝ) :
    wrapGW (toGaussianGamma (gaussianFixed x)) (wishartFixed L)
      = mkGW (L.mulVec x) (x ⬝ᵥ L.mulVec x) L (Real.log L.det) := by
  have e0 : ∀ (a a' : ι → ℝ) b b' C C' d d', a = a' → b = b' → C = C' → d = d' →
      mkGW (ι := ι) a b C d = mkGW a' b' C' d' := by
    rintro _ _ _ _ _ _ _ _ rfl rfl rfl rfl; rfl
  refine e0 _ _ _ _ _ _ _ _ rfl ?_ ?_ ?_
  · change ∑ i, ∑ j, L i j * (x i * x j) = ∑ i, x i * ∑ j, L i j * x j
    simp only [Finset.mul_sum]
    exact Finset.sum_congr rfl fun i _ => Finset.sum_congr rfl fun j _ => by ring
  · change (1 : ℝ) • L = L
    exact one_smul _ _
  · change Real.log L.det + (Fintype.card ι : ℝ) * 0 = _
    rw [mul_zero, add_zero]

/-- Scaling a fixed matrix by a fixed positive number gives the moments of the product. -/
theorem C19_scale_fixed (L : Matrix ι ι ℝ) (hL : L.det ≠ 0) (a : ℝ) (ha : 0 < a) :
    scaleWishart (wishartFixed L) ![a, Real.log a] = wishartFixed (a • L) := by
  have e : ∀ (A A' : Matrix ι ι ℝ) b b', A = A' → b = b' → mkW (ι := ι) A b = mkW A' b' := by
    rintro _ _ _ _ rfl rfl; rfl
  refine e _ _ _ _ ?_ ?_
  · funext i j
    exact mul_comm _ _
  · rw [Matrix.det_smul, Real.log_mul (pow_ne_zero _ ha.ne') hL, Real.log_pow]
    exact add_comm _ _

end

/-! ### Gaussian axes to plates -/

section
variable {α β : Type*} [Fintype α] [Fintype β] [DecidableEq α] [DecidableEq β]

theorem gaussianToGaussianMsg_dot (m : G2GIx α β → ℝ) (u : GIx (α × β) → ℝ) :
    gaussianToGaussianMsg m ⬝ᵥ u = ∑ p, m (.inl p) * u (.inl p) + ∑ p : α × β, m (.inr (p.1, p.2, p.2)) * u (.inr (p, p)) := by
  rw [g_dot]
  refine congrArg₂ (· + ·) (Finset.sum_congr rfl fun p _ => ?_) (Finset.sum_congr rfl fun p _ => ?_)
  · change m (.inl p) * 1 * _ = _
    rw [mul_one]
    rfl
  · rw [Finset.sum_eq_single p]
    · change (if p = p then (1 : ℝ) else 0) * _ * (if p = p then 1 else 0) * _ = _
      rw [if_pos rfl, one_mul, mul_one]
      rfl
    · intro q _ hq
      change _ * (if p = q then (1 : ℝ) else 0) * _ = _
      rw [if_neg (Ne.symm hq), mul_zero, zero_mul]
    · exact fun h => absurd (Finset.mem_univ p) h

/-- Adjoint if the message is diagonal in the axes that are kept.  Full claim: `IsCoefficient` for every `m`, which is
refuted below. -/
theorem C19_gaussian_to_gaussian_partial (m : G2GIx α β → ℝ) (hm : ∀ a b b', b ≠ b' → m (.inr (a, b, b')) = 0) :
    IsCoefficient (fun u => m ⬝ᵥ gaussianToGaussian u) (gaussianToGaussianMsg m) := by
  refine ⟨0, fun u => ?_⟩
  beta_reduce
  rw [gaussianToGaussianMsg_dot, add_zero]
  simp only [dotProduct, Fintype.sum_sum_type, Fintype.sum_prod_type]
  refine congrArg₂ (· + ·) rfl (Finset.sum_congr rfl fun a _ => Finset.sum_congr rfl fun b _ => ?_)
  rw [Finset.sum_eq_single b]
  · rfl
  · intro b' _ hb
    rw [hm a b b' (Ne.symm hb), zero_mul]
  · exact fun h => absurd (Finset.mem_univ b) h

/-- In particular if no axis is kept (`ndim = 0`). -/
theorem C19_gaussian_to_scalar [Unique β] (m : G2GIx α β → ℝ) :
    IsCoefficient (fun u => m ⬝ᵥ gaussianToGaussian u) (gaussianToGaussianMsg m) :=
  C19_gaussian_to_gaussian_partial m fun _ b b' h => absurd (Subsingleton.elim b b') h

/-- With an axis kept, the message loses what it says about pairs of different elements: for any message that is not
diagonal in the kept axes, the message to the parent is not adjoint. -/
theorem C19_gaussian_to_gaussian_refuted (m : G2GIx α β → ℝ) (a : α) (b b' : β) (hb : b ≠ b')
    (hm : m (.inr (a, b, b')) ≠ 0) :
    ¬ IsCoefficient (fun u => m ⬝ᵥ gaussianToGaussian u) (gaussianToGaussianMsg m) := by
  rintro ⟨r, h⟩
  have h0 := h 0
  have h1 := h (Pi.single (.inr ((a, b), (a, b'))) 1)
  beta_reduce at h0 h1
  rw [gaussianToGaussianMsg_dot] at h0 h1
  have z : gaussianToGaussian (0 : GIx (α × β) → ℝ) = 0 := by
    funext q
    rcases q with q | q <;> rfl
  rw [z, dotProduct_zero] at h0
  have hr : r = 0 := by simpa using h0.symm
  have e : gaussianToGaussian (Pi.single (.inr ((a, b), (a, b'))) 1 : GIx (α × β) → ℝ) = Pi.single (.inr (a, b, b')) 1 := by
    funext q
    rcases q with q | ⟨a', c, c'⟩
    · simp [gaussianToGaussian]
    · by_cases hq : (a', c, c') = (a, b, b')
      · obtain ⟨rfl, rfl, rfl⟩ : a' = a ∧ c = b ∧ c' = b' := by simpa using hq
        simp [gaussianToGaussian]
      · have hq' : ¬ (((a', c), (a', c')) : (α × β) × (α × β)) = ((a, b), (a, b')) := by
          intro hh
          apply hq
          simp only [Prod.mk.injEq] at hh ⊢
          tauto
        change Pi.single (M := fun _ => ℝ) (Sum.inr ((a, b), (a, b'))) 1 (Sum.inr ((a', c), (a', c'))) = _
        rw [Pi.single_eq_of_ne, Pi.single_eq_of_ne]
        · exact fun hh => hq (Sum.inr.inj hh)
        · exact fun hh => hq' (Sum.inr.inj hh)
  rw [e, dotProduct_single, mul_one, hr, add_zero] at h1
  apply hm
  rw [h1]
  have s1 : ∑ p : α × β, m (.inl p) * (Pi.single (.inr ((a, b), (a, b'))) 1 : GIx (α × β) → ℝ) (.inl p) = 0 :=
    Finset.sum_eq_zero fun p _ => by simp
  have s2 : ∑ p : α × β, m (.inr (p.1, p.2, p.2)) * (Pi.single (.inr ((a, b), (a, b'))) 1 : GIx (α × β) → ℝ) (.inr (p, p))
      = 0 := by
    refine Finset.sum_eq_zero fun p _ => ?_
    rw [Pi.single_eq_of_ne, mul_zero]
    intro hh
    have := Sum.inr.inj hh
    simp only [Prod.mk.injEq] at this
    apply hb
    have h1 := congrArg Prod.snd this.1
    have h2 := congrArg Prod.snd this.2
    exact h1.symm.trans h2
  rw [s1, s2, add_zero]

/-- such a message: two axes of lengths 1 and 2, of which the second is kept -/
example : ∃ m : G2GIx (Fin 1) (Fin 2) → ℝ, m (.inr (0, 0, 1)) ≠ 0 := ⟨fun _ => 1, one_ne_zero⟩

end

end Verif
