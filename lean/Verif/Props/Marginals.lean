import Verif.Model.Marginals
import Verif.Props.GaussianExact
import Mathlib.LinearAlgebra.Matrix.SchurComplement

/-!
# C63: the marginal distributions of a Gaussian-gamma node
-/

namespace Verif
open Spec MeasureTheory Matrix

section gaussian
variable {ι κ κ' : Type} [Fintype ι] [DecidableEq ι] [Fintype κ] [DecidableEq κ] [Fintype κ'] [DecidableEq κ']

/-- The density computed by a Gaussian node, in terms of its mean and its precision -/
theorem exp_logpdf_gaussianPdf (phi : GIx ι → ℝ) (hL : ((-2 : ℝ) • g1 phi).PosDef) (x : ι → ℝ) :
    Real.exp (logpdf (gaussianFixed x) phi (gaussianCgf phi) (gaussianF (Fintype.card ι)))
      = gaussianPdf (((-2 : ℝ) • g1 phi)⁻¹ *ᵥ g0 phi) ((-2 : ℝ) • g1 phi) x := by
  set L := (-2 : ℝ) • g1 phi with hLdef
  set mu := L⁻¹ *ᵥ g0 phi with hmu
  have hdet := hL.det_pos
  have hLmu : L *ᵥ mu = g0 phi := by
    rw [hmu, mulVec_mulVec, mul_nonsing_inv _ (isUnit_iff_ne_zero.2 hdet.ne'), one_mulVec]
  have hsym : ∀ a b : ι → ℝ, a ⬝ᵥ L *ᵥ b = b ⬝ᵥ L *ᵥ a := by
    intro a b
    have : Lᵀ = L := by simpa using hL.1.eq
    rw [dotProduct_mulVec, ← mulVec_transpose, this, dotProduct_comm]
  have h2 : (0 : ℝ) < 2 * Real.pi := by positivity
  have hg1 : g1 phi = (-0.5 : ℝ) • L := by
    rw [hLdef, smul_smul]
    norm_num
  have hq : (x - mu) ⬝ᵥ L *ᵥ (x - mu) = x ⬝ᵥ L *ᵥ x - 2 * (g0 phi ⬝ᵥ x) + mu ⬝ᵥ g0 phi := by
    rw [mulVec_sub, sub_dotProduct, dotProduct_sub, dotProduct_sub, hsym mu x, hLmu, dotProduct_comm x (g0 phi)]
    ring
  have e : mkG (g0 phi) (g1 phi) = phi := by
    funext k
    rcases k with i | ⟨i, j⟩ <;> rfl
  have hd : phi ⬝ᵥ gaussianFixed x = g0 phi ⬝ᵥ x + -0.5 * (x ⬝ᵥ L *ᵥ x) := by
    conv_lhs => rw [← e]
    rw [mkG_dot, hg1, smul_mulVec, dotProduct_smul, smul_eq_mul]
  have hlog : Real.log (gaussianPdf mu L x) = logpdf (gaussianFixed x) phi (gaussianCgf phi) (gaussianF (Fintype.card ι)) := by
    rw [gaussianPdf, Real.log_mul (by positivity) (by positivity), Real.log_mul (by positivity) (by positivity),
      Real.log_rpow h2, Real.log_rpow hdet, Real.log_exp, hq, logpdf_eq, hd, gaussianCgf, gaussianF]
    rw [← hLdef, ← hmu]
    ring
  rw [← hlog, Real.exp_log]
  unfold gaussianPdf
  positivity

theorem gaussianPdf_pos (mu : ι → ℝ) {L : Matrix ι ι ℝ} (hL : L.PosDef) (x : ι → ℝ) : 0 < gaussianPdf mu L x := by
  have := hL.det_pos
  unfold gaussianPdf
  positivity

/-- The natural parameters of a Gaussian with given mean and precision -/
theorem gaussianPdf_natural (mu : ι → ℝ) {L : Matrix ι ι ℝ} (hL : L.PosDef) :
    ∃ phi : GIx ι → ℝ, (-2 : ℝ) • g1 phi = L ∧ ((-2 : ℝ) • g1 phi)⁻¹ *ᵥ g0 phi = mu := by
  have e : (-2 : ℝ) • g1 (mkG (L *ᵥ mu) ((-0.5 : ℝ) • L)) = L := by
    show (-2 : ℝ) • ((-0.5 : ℝ) • L) = L
    rw [smul_smul]
    norm_num
  refine ⟨mkG (L *ᵥ mu) ((-0.5 : ℝ) • L), e, ?_⟩
  rw [e]
  show L⁻¹ *ᵥ (L *ᵥ mu) = mu
  rw [mulVec_mulVec, nonsing_inv_mul _ (isUnit_iff_ne_zero.2 hL.det_pos.ne'), one_mulVec]

theorem integral_gaussianPdf (mu : ι → ℝ) {L : Matrix ι ι ℝ} (hL : L.PosDef) : ∫ x, gaussianPdf mu L x = 1 := by
  obtain ⟨phi, h1, h2⟩ := gaussianPdf_natural mu hL
  rw [← C22_gaussian_normaliser phi (by rwa [h1])]
  refine integral_congr_ae (Filter.Eventually.of_forall fun x => ?_)
  dsimp only
  rw [exp_logpdf_gaussianPdf phi (by rwa [h1]), h2, h1]

theorem lintegral_gaussianPdf (mu : ι → ℝ) {L : Matrix ι ι ℝ} (hL : L.PosDef) :
    ∫⁻ x, ENNReal.ofReal (gaussianPdf mu L x) = 1 := by
  have h := integral_gaussianPdf mu hL
  have hi : Integrable fun x => gaussianPdf mu L x := by
    by_contra hn
    rw [integral_undef hn] at h
    exact zero_ne_one h
  rw [← ofReal_integral_eq_lintegral_ofReal hi (Filter.Eventually.of_forall fun x => (gaussianPdf_pos mu hL x).le), h,
    ENNReal.ofReal_one]

theorem measurable_gaussianPdf (mu : ι → ℝ) (L : Matrix ι ι ℝ) : Measurable fun x => gaussianPdf mu L x := by
  apply Continuous.measurable
  unfold gaussianPdf dotProduct mulVec dotProduct
  fun_prop

theorem posDef_submatrix {A : Matrix ι ι ℝ} (hA : A.PosDef) {e : κ → ι} (he : Function.Injective e) :
    (A.submatrix e e).PosDef := by
  refine ⟨hA.1.submatrix _, fun x hx => ?_⟩
  have := hA.2 (x := x.mapDomain e) fun h0 => hx (Finsupp.mapDomain_injective he (h0.trans Finsupp.mapDomain_zero.symm))
  simpa [Finsupp.sum_mapDomain_index, add_mul, mul_add] using this

/-- The precision of some elements is the Schur complement: the inverse of their covariance -/
theorem schur_inverse (L : Matrix (κ ⊕ κ') (κ ⊕ κ') ℝ) (hL : L.PosDef) :
    L.toBlocks₂₂.PosDef ∧ (L⁻¹.toBlocks₁₁)⁻¹ = L.toBlocks₁₁ - L.toBlocks₁₂ * L.toBlocks₂₂⁻¹ * L.toBlocks₂₁ ∧
      L.det = L.toBlocks₂₂.det * (L⁻¹.toBlocks₁₁)⁻¹.det := by
  have hD : L.toBlocks₂₂.PosDef := posDef_submatrix (e := Sum.inr) hL Sum.inr_injective
  have hDu : IsUnit L.toBlocks₂₂.det := isUnit_iff_ne_zero.2 hD.det_pos.ne'
  have hinv : L⁻¹ * L = 1 := nonsing_inv_mul _ (isUnit_iff_ne_zero.2 hL.det_pos.ne')
  have hb : fromBlocks (L⁻¹).toBlocks₁₁ (L⁻¹).toBlocks₁₂ (L⁻¹).toBlocks₂₁ (L⁻¹).toBlocks₂₂ *
      fromBlocks L.toBlocks₁₁ L.toBlocks₁₂ L.toBlocks₂₁ L.toBlocks₂₂ = fromBlocks 1 0 0 1 := by
    rw [fromBlocks_toBlocks, fromBlocks_toBlocks, hinv, fromBlocks_one]
  rw [fromBlocks_multiply, fromBlocks_inj] at hb
  obtain ⟨h11, h12, -, -⟩ := hb
  have hQ : (L⁻¹).toBlocks₁₂ = -((L⁻¹).toBlocks₁₁ * L.toBlocks₁₂ * L.toBlocks₂₂⁻¹) := by
    have := congrArg (· * L.toBlocks₂₂⁻¹) (eq_neg_of_add_eq_zero_right h12)
    simp only [Matrix.mul_assoc, mul_nonsing_inv _ hDu, Matrix.mul_one, neg_mul, Matrix.neg_mul] at this
    rw [this, Matrix.mul_assoc]
  have hS : (L⁻¹).toBlocks₁₁ * (L.toBlocks₁₁ - L.toBlocks₁₂ * L.toBlocks₂₂⁻¹ * L.toBlocks₂₁) = 1 := by
    rw [← h11, hQ, Matrix.mul_sub, Matrix.neg_mul, sub_eq_add_neg]
    simp only [Matrix.mul_assoc]
  have hS' := Matrix.inv_eq_right_inv hS
  refine ⟨hD, hS', ?_⟩
  haveI := L.toBlocks₂₂.invertibleOfIsUnitDet hDu
  rw [hS']
  conv_lhs => rw [← fromBlocks_toBlocks L, det_fromBlocks₂₂, invOf_eq_nonsing_inv]

/-- The density of two groups of Gaussian elements is the marginal density of the first times a Gaussian density. -/
theorem gaussianPdf_split (mu : κ ⊕ κ' → ℝ) (L : Matrix (κ ⊕ κ') (κ ⊕ κ') ℝ) (hL : L.PosDef) (x : κ → ℝ) (y : κ' → ℝ) :
    gaussianPdf mu L (Sum.elim x y) = gaussianPdf (mu ∘ Sum.inl) (L⁻¹.toBlocks₁₁)⁻¹ x *
      gaussianPdf (mu ∘ Sum.inr - L.toBlocks₂₂⁻¹ *ᵥ L.toBlocks₂₁ *ᵥ (x - mu ∘ Sum.inl)) L.toBlocks₂₂ y := by
  obtain ⟨hD, hS, hdet⟩ := schur_inverse L hL
  have hP : (L⁻¹.toBlocks₁₁).PosDef := posDef_submatrix (e := Sum.inl) hL.inv Sum.inl_injective
  have hDu : IsUnit L.toBlocks₂₂.det := isUnit_iff_ne_zero.2 hD.det_pos.ne'
  have hSd := hP.inv.det_pos
  have hDd := hD.det_pos
  have hsym : L.toBlocks₁₂ᵀ = L.toBlocks₂₁ := by
    ext i j
    have := congrFun (congrFun hL.1.eq (Sum.inr i)) (Sum.inl j)
    simpa [toBlocks₁₂, toBlocks₂₁] using this
  have hDsym : L.toBlocks₂₂ᵀ = L.toBlocks₂₂ := by simpa using hD.1.eq
  set a := x - mu ∘ Sum.inl with ha
  set b := y - mu ∘ Sum.inr with hb
  have hsub : Sum.elim x y - mu = Sum.elim a b := by
    funext k
    rcases k with k | k <;> rfl
  have hsub2 : y - (mu ∘ Sum.inr - L.toBlocks₂₂⁻¹ *ᵥ L.toBlocks₂₁ *ᵥ a) = b + L.toBlocks₂₂⁻¹ *ᵥ L.toBlocks₂₁ *ᵥ a := by
    rw [hb]
    abel
  have hq : Sum.elim a b ⬝ᵥ L *ᵥ Sum.elim a b = a ⬝ᵥ (L⁻¹.toBlocks₁₁)⁻¹ *ᵥ a +
      (b + L.toBlocks₂₂⁻¹ *ᵥ L.toBlocks₂₁ *ᵥ a) ⬝ᵥ L.toBlocks₂₂ *ᵥ (b + L.toBlocks₂₂⁻¹ *ᵥ L.toBlocks₂₁ *ᵥ a) := by
    set c := L.toBlocks₂₁ *ᵥ a with hc
    have e1 : L.toBlocks₂₂ *ᵥ (L.toBlocks₂₂⁻¹ *ᵥ c) = c := by
      rw [mulVec_mulVec, mul_nonsing_inv _ hDu, one_mulVec]
    have e2 : ∀ v : κ' → ℝ, (L.toBlocks₂₂⁻¹ *ᵥ c) ⬝ᵥ L.toBlocks₂₂ *ᵥ v = c ⬝ᵥ v := by
      intro v
      rw [dotProduct_mulVec, ← mulVec_transpose, hDsym, e1]
    have e3 : ∀ v : κ' → ℝ, a ⬝ᵥ L.toBlocks₁₂ *ᵥ v = c ⬝ᵥ v := by
      intro v
      rw [dotProduct_mulVec, ← mulVec_transpose, hsym]
    conv_lhs => rw [← fromBlocks_toBlocks L, fromBlocks_mulVec]
    rw [hS, sub_mulVec, dotProduct_sub, mulVec_add, e1, add_dotProduct, dotProduct_add, dotProduct_add, e2,
      show (L.toBlocks₁₂ * L.toBlocks₂₂⁻¹ * L.toBlocks₂₁) *ᵥ a = L.toBlocks₁₂ *ᵥ (L.toBlocks₂₂⁻¹ *ᵥ c) by
        rw [hc, mulVec_mulVec, mulVec_mulVec, Matrix.mul_assoc], e3]
    rw [show Sum.elim a b ⬝ᵥ Sum.elim (L.toBlocks₁₁ *ᵥ (Sum.elim a b ∘ Sum.inl) + L.toBlocks₁₂ *ᵥ (Sum.elim a b ∘ Sum.inr))
        (L.toBlocks₂₁ *ᵥ (Sum.elim a b ∘ Sum.inl) + L.toBlocks₂₂ *ᵥ (Sum.elim a b ∘ Sum.inr))
        = a ⬝ᵥ (L.toBlocks₁₁ *ᵥ a + L.toBlocks₁₂ *ᵥ b) + b ⬝ᵥ (c + L.toBlocks₂₂ *ᵥ b) from sumElim_dotProduct_sumElim ..]
    rw [dotProduct_add, dotProduct_add, e3, dotProduct_comm b c, dotProduct_comm (L.toBlocks₂₂⁻¹ *ᵥ c) c]
    ring
  unfold gaussianPdf
  rw [hsub, hsub2, hq, hdet, Real.mul_rpow hDd.le hSd.le, Fintype.card_sum, mul_add, Real.exp_add]
  rw [show (-((Fintype.card κ + Fintype.card κ' : ℕ) : ℝ)) / 2 = -(Fintype.card κ : ℝ) / 2 + -(Fintype.card κ' : ℝ) / 2 by
    push_cast; ring, Real.rpow_add (by positivity)]
  ring

theorem gaussian_marginal_sum (mu : κ ⊕ κ' → ℝ) (L : Matrix (κ ⊕ κ') (κ ⊕ κ') ℝ) (hL : L.PosDef)
    (F : (κ → ℝ) → ENNReal) (hF : Measurable F) :
    ∫⁻ x, F (x ∘ Sum.inl) * ENNReal.ofReal (gaussianPdf mu L x)
      = ∫⁻ x, F x * ENNReal.ofReal (gaussianPdf (mu ∘ Sum.inl) (L⁻¹.toBlocks₁₁)⁻¹ x) := by
  have hmp := volume_measurePreserving_sumPiEquivProdPi_symm (fun _ : κ ⊕ κ' => ℝ)
  have hP : (L⁻¹.toBlocks₁₁).PosDef := posDef_submatrix (e := Sum.inl) hL.inv Sum.inl_injective
  rw [← hmp.lintegral_comp_emb (MeasurableEquiv.measurableEmbedding _)]
  have e : ∀ p : (κ → ℝ) × (κ' → ℝ), (MeasurableEquiv.sumPiEquivProdPi fun _ : κ ⊕ κ' => ℝ).symm p = Sum.elim p.1 p.2 := by
    intro p
    funext k
    rcases k with k | k <;> rfl
  simp only [e]
  have hm : Measurable fun p : (κ → ℝ) × (κ' → ℝ) => F p.1 * ENNReal.ofReal (gaussianPdf mu L (Sum.elim p.1 p.2)) := by
    refine (hF.comp measurable_fst).mul (((measurable_gaussianPdf mu L).comp ?_).ennreal_ofReal)
    refine measurable_pi_lambda _ fun k => ?_
    rcases k with k | k
    · exact (measurable_pi_apply k).comp measurable_fst
    · exact (measurable_pi_apply k).comp measurable_snd
  rw [Measure.volume_eq_prod]
  refine (lintegral_prod _ hm.aemeasurable).trans (lintegral_congr fun x => ?_)
  show ∫⁻ y, F x * ENNReal.ofReal (gaussianPdf mu L (Sum.elim x y)) = _
  have h1 := (gaussianPdf_pos (mu ∘ Sum.inl) hP.inv x).le
  simp only [gaussianPdf_split mu L hL, ENNReal.ofReal_mul h1]
  rw [lintegral_const_mul _ (((measurable_gaussianPdf _ _).ennreal_ofReal).const_mul _),
    lintegral_const_mul _ ((measurable_gaussianPdf _ _).ennreal_ofReal), lintegral_gaussianPdf _ (schur_inverse L hL).1, mul_one]

/-- The elements `inds` of a Gaussian vector are Gaussian, and their covariance is a part of the covariance. -/
theorem gaussian_marginal (mu : ι → ℝ) (L : Matrix ι ι ℝ) (hL : L.PosDef) (inds : κ → ι) (hi : Function.Injective inds)
    (F : (κ → ℝ) → ENNReal) (hF : Measurable F) :
    ∫⁻ x, F (x ∘ inds) * ENNReal.ofReal (gaussianPdf mu L x)
      = ∫⁻ x, F x * ENNReal.ofReal (gaussianPdf (mu ∘ inds) (L⁻¹.submatrix inds inds)⁻¹ x) := by
  classical
  let κ' := { i : ι // i ∉ Set.range inds }
  let e : κ ⊕ κ' ≃ ι := (Equiv.sumCongr (Equiv.ofInjective inds hi) (Equiv.refl _)).trans (Equiv.Set.sumCompl (Set.range inds))
  have he : ∀ k, e (Sum.inl k) = inds k := fun k => rfl
  have hmp := volume_measurePreserving_piCongrLeft (fun _ : ι => ℝ) e
  have hpi : ∀ x : κ ⊕ κ' → ℝ, (MeasurableEquiv.piCongrLeft (fun _ : ι => ℝ) e) x = x ∘ e.symm := by
    intro x
    funext i
    obtain ⟨k, rfl⟩ := e.surjective i
    rw [MeasurableEquiv.coe_piCongrLeft, Equiv.piCongrLeft_apply_apply]
    simp
  rw [← hmp.lintegral_comp_emb (MeasurableEquiv.measurableEmbedding _)]
  simp only [hpi]
  have hg : ∀ x : κ ⊕ κ' → ℝ, gaussianPdf mu L (x ∘ e.symm) = gaussianPdf (mu ∘ e) (L.submatrix e e) x := by
    intro x
    have hq : (x ∘ e.symm - mu) ⬝ᵥ L *ᵥ (x ∘ e.symm - mu) = (x - mu ∘ e) ⬝ᵥ L.submatrix e e *ᵥ (x - mu ∘ e) := by
      rw [show x ∘ e.symm - mu = (x - mu ∘ e) ∘ e.symm by funext i; simp, submatrix_mulVec_equiv]
      exact comp_equiv_symm_dotProduct _ _ e
    unfold gaussianPdf
    rw [det_submatrix_equiv_self, Fintype.card_congr e, hq]
  have hx : ∀ x : κ ⊕ κ' → ℝ, (x ∘ e.symm) ∘ inds = x ∘ Sum.inl := by
    intro x
    funext k
    show x (e.symm (inds k)) = _
    rw [← he, Equiv.symm_apply_apply]
    rfl
  simp only [hg, hx]
  have hLe : (L.submatrix e e).PosDef := posDef_submatrix hL e.injective
  have := gaussian_marginal_sum (mu ∘ e) (L.submatrix e e) hLe F hF
  refine this.trans ?_
  rw [inv_submatrix_equiv]
  rfl

theorem integral_rpow_exp {s r : ℝ} (hs : 0 < s) (hr : 0 < r) (K : ℝ) (hK : 0 < K) :
    ∫⁻ t in Set.Ioi (0 : ℝ), ENNReal.ofReal (K * (t ^ (s - 1) * Real.exp (-(r * t))))
      = ENNReal.ofReal (K * ((1 / r) ^ s * Real.Gamma s)) := by
  have h := Real.integral_rpow_mul_exp_neg_mul_Ioi hs hr
  have hpos : 0 < (1 / r) ^ s * Real.Gamma s := mul_pos (Real.rpow_pos_of_pos (by positivity) _) (Real.Gamma_pos_of_pos hs)
  have hi : IntegrableOn (fun t : ℝ => t ^ (s - 1) * Real.exp (-(r * t))) (Set.Ioi 0) := by
    by_contra hn
    rw [integral_undef hn] at h
    exact hpos.ne h
  rw [← h, ← integral_const_mul, ofReal_integral_eq_lintegral_ofReal (hi.const_mul K)]
  refine (ae_restrict_iff' measurableSet_Ioi).2 (Filter.Eventually.of_forall fun t ht => ?_)
  have ht' : (0 : ℝ) < t := ht
  show 0 ≤ K * (t ^ (s - 1) * Real.exp (-(r * t)))
  positivity

theorem gaussianPdf_smul (mu : ι → ℝ) (P : Matrix ι ι ℝ) (tau : ℝ) (x : ι → ℝ) :
    gaussianPdf mu (tau • P) x = (2 * Real.pi) ^ (-(Fintype.card ι : ℝ) / 2) * (tau ^ Fintype.card ι * P.det) ^ (1 / 2 : ℝ) *
      Real.exp (-1 / 2 * (tau * ((x - mu) ⬝ᵥ P *ᵥ (x - mu)))) := by
  unfold gaussianPdf
  rw [det_smul, smul_mulVec, dotProduct_smul, smul_eq_mul]

/-- The gamma number integrated out of a Gaussian-gamma pair gives a Student t density. -/
theorem student_integral (mu : κ → ℝ) (C : Matrix κ κ ℝ) (hC : C.PosDef) (a b : ℝ) (ha : 0 < a) (hb : 0 < b) (x : κ → ℝ) :
    ∫⁻ tau in Set.Ioi (0 : ℝ), ENNReal.ofReal (gammaPdf a b tau * gaussianPdf mu (tau • C⁻¹) x)
      = ENNReal.ofReal (Real.exp (randTLogpdf ((x - mu) ⬝ᵥ ((1 / (a / b)) • C)⁻¹ *ᵥ (x - mu))
          (Real.log ((1 / (a / b)) • C).det) (2 * a) (Fintype.card κ))) := by
  have hd := hC.det_pos
  have hP := hC.inv
  have hPd := hP.det_pos
  set n := Fintype.card κ with hn
  set q := (x - mu) ⬝ᵥ C⁻¹ *ᵥ (x - mu) with hq
  have hq0 : 0 ≤ q := by
    have := hP.posSemidef.dotProduct_mulVec_nonneg (x - mu)
    simpa only [star_trivial] using this
  have hz : (x - mu) ⬝ᵥ ((1 / (a / b)) • C)⁻¹ *ᵥ (x - mu) = a / b * q := by
    have : ((1 / (a / b)) • C)⁻¹ = (a / b) • C⁻¹ := by
      apply Matrix.inv_eq_right_inv
      rw [smul_mul_smul_comm, mul_nonsing_inv _ (isUnit_iff_ne_zero.2 hd.ne'), one_div, inv_mul_cancel₀ (by positivity), one_smul]
    rw [this, smul_mulVec, dotProduct_smul, smul_eq_mul]
  have hr : 0 < b + q / 2 := by positivity
  have hs : 0 < a + n / 2 := by positivity
  have hG := Real.Gamma_pos_of_pos ha
  set K := (2 * Real.pi) ^ (-(n : ℝ) / 2) * (C⁻¹).det ^ (1 / 2 : ℝ) * (b ^ a / Real.Gamma a) with hK
  have hKp : 0 < K := by positivity
  have e : ∀ tau ∈ Set.Ioi (0 : ℝ), gammaPdf a b tau * gaussianPdf mu (tau • C⁻¹) x
      = K * (tau ^ (a + n / 2 - 1) * Real.exp (-((b + q / 2) * tau))) := by
    intro tau ht
    have ht' : (0 : ℝ) < tau := ht
    rw [gaussianPdf_smul, gammaPdf, ← hq, ← hn, Real.mul_rpow (by positivity) hPd.le, ← Real.rpow_natCast, ← Real.rpow_mul ht'.le,
      show a + (n : ℝ) / 2 - 1 = (a - 1) + n * (1 / 2) by ring, Real.rpow_add ht',
      show -((b + q / 2) * tau) = -(b * tau) + -1 / 2 * (tau * q) by ring, Real.exp_add, hK]
    ring
  rw [setLIntegral_congr_fun measurableSet_Ioi fun tau ht => congrArg ENNReal.ofReal (e tau ht),
    integral_rpow_exp hs hr K hKp]
  congr 1
  have hGs := Real.Gamma_pos_of_pos hs
  rw [← Real.exp_log (show 0 < K * ((1 / (b + q / 2)) ^ (a + (n : ℝ) / 2) * Real.Gamma (a + n / 2)) by positivity)]
  congr 1
  rw [hK, Real.log_mul (by positivity) (by positivity), Real.log_mul (by positivity) (by positivity),
    Real.log_mul (by positivity) (by positivity), Real.log_mul (by positivity) (by positivity),
    Real.log_div (by positivity) (by positivity), Real.log_rpow (by positivity), Real.log_rpow hPd, Real.log_rpow hb,
    Real.log_rpow (by positivity), det_nonsing_inv, Ring.inverse_eq_inv', Real.log_inv, one_div (b + q / 2), Real.log_inv]
  unfold randTLogpdf
  rw [hz, det_smul, Real.log_mul (x := (1 / (a / b)) ^ Fintype.card κ) (by positivity) (by positivity), Real.log_pow,
    one_div (a / b), Real.log_inv, Real.log_div (x := a) (y := b) (by positivity) (by positivity),
    show (1 : ℝ) + a / b * q / (2 * a) = (b + q / 2) / b by field_simp, Real.log_div (x := b + q / 2) (y := b) (by positivity) (by positivity),
    show 2 * a * Real.pi = (2 * Real.pi) * a by ring, Real.log_mul (x := 2 * Real.pi) (y := a) (by positivity) (by positivity), ← hn,
    show (2 * a + (n : ℝ)) / 2 = a + n / 2 by ring, show 2 * a / 2 = a by ring]
  unfold gammaln
  norm_num
  ring

end gaussian

/-! ### The node -/

section
variable {D n : ℕ} (phi : GGIx (Fin D) → ℝ)

/-- **The methods always raise**: `self.ndim` is not an attribute of the node. -/
theorem C63_marginal_raises (u : GGIx (Fin D) → ℝ) (inds : Option (Fin n → Fin D)) (gamma : Bool) :
    ggParams none phi u inds gamma = .error .attributeError ∧ ggMeanAndVariance none phi u = .error .attributeError :=
  ⟨rfl, rfl⟩

theorem ggMoments_u2 : gg2 (ggMoments phi) = gg3 phi / ggB phi := rfl

theorem ggMoments_mu (hb : 0 < ggB phi) (ha : 0 < gg3 phi) (i : Fin D) :
    gg0 (ggMoments phi) i / gg2 (ggMoments phi) = ggMu phi i := by
  show (gg3 phi / ggB phi) * ggMu phi i / (gg3 phi / ggB phi) = _
  have : gg3 phi / ggB phi ≠ 0 := (div_pos ha hb).ne'
  field_simp

theorem ggMoments_cov (hb : 0 < ggB phi) (ha : 0 < gg3 phi) :
    gg1 (ggMoments phi) - vecMulVec (gg0 (ggMoments phi)) (ggMu phi) = ((-2 : ℝ) • gg1 phi)⁻¹ := by
  ext i j
  show ((-2 : ℝ) • gg1 phi)⁻¹ i j + (gg3 phi / ggB phi) * (ggMu phi i * ggMu phi j)
    - (gg3 phi / ggB phi) * ggMu phi i * ggMu phi j = _
  ring

/-- With the attribute, the parameters are the mean, the inverse of the precision, and shape and rate of the gamma number. -/
theorem ggParams_eq (hb : 0 < ggB phi) (ha : 0 < gg3 phi) (inds : Option (Fin n → Fin D)) (gamma : Bool)
    (hg : inds.isSome ∨ gamma = true) :
    ggParams (some 1) phi (ggMoments phi) inds gamma
      = .ok ⟨ggMu phi, ((-2 : ℝ) • gg1 phi)⁻¹, gg3 phi, ggB phi⟩ := by
  unfold ggParams
  have hmu : (fun i => gg0 (ggMoments phi) i / gg2 (ggMoments phi)) = ggMu phi := funext (ggMoments_mu phi hb ha)
  simp only [ne_eq, not_true_eq_false, if_false]
  rw [if_neg (by rintro ⟨h1, h2⟩; rcases hg with h | h <;> simp_all)]
  rw [hmu, ggMoments_cov phi hb ha, if_neg (not_not.2 (show AllClose _ _ from fun i j => by rw [sub_self, abs_zero]; positivity))]
  rw [ggB, dotProduct_comm (ggMu phi)]

theorem gg_density (h : ((-2 : ℝ) • gg1 phi).PosDef) (hb : 0 < ggB phi) (ha : 0 < gg3 phi) (x : Fin D → ℝ) (tau : ℝ)
    (ht : 0 < tau) : Real.exp (logpdf (ggFixed x tau) phi (ggCgf phi) (ggF x tau))
      = gammaPdf (gg3 phi) (ggB phi) tau * gaussianPdf (ggMu phi) (tau • ((-2 : ℝ) • gg1 phi)) x := by
  obtain ⟨hL, hpd, -, hmu⟩ := gg_conditional phi h tau ht
  rw [gg_factor phi h x tau ht, exp_logpdf_gaussianPdf _ hpd, hmu, hL]
  congr 1
  have hG := Real.Gamma_pos_of_pos ha
  have hlog : Real.log (gammaPdf (gg3 phi) (ggB phi) tau)
      = logpdf (gammaFixed tau) (ggMarginal phi) (gammaCgf (ggMarginal phi)) (gammaF tau) := by
    rw [gammaPdf, Real.log_mul (by positivity) (by positivity), Real.log_mul (by positivity) (by positivity),
      Real.log_div (by positivity) (by positivity), Real.log_rpow hb, Real.log_rpow ht, Real.log_exp]
    simp only [logpdf_eq, dotProduct, Fin.sum_univ_two, gammaFixed, gammaCgf, gammaF, ggMarginal, gammaln,
      Matrix.cons_val_zero, Matrix.cons_val_one, neg_neg]
    ring
  rw [← hlog, Real.exp_log]
  unfold gammaPdf
  positivity

theorem gg_measurable (mu : Fin D → ℝ) (L : Matrix (Fin D) (Fin D) ℝ) (a b : ℝ) :
    Measurable fun p : (Fin D → ℝ) × ℝ => gammaPdf a b p.2 * gaussianPdf mu (p.2 • L) p.1 := by
  simp only [gaussianPdf_smul]
  unfold gammaPdf dotProduct mulVec dotProduct
  fun_prop

/-- The marginal of some elements of the vector together with the gamma number, against every test function. -/
theorem gg_marginal (h : ((-2 : ℝ) • gg1 phi).PosDef) (hb : 0 < ggB phi) (ha : 0 < gg3 phi) (inds : Fin n → Fin D)
    (hi : Function.Injective inds) (F : (Fin n → ℝ) → ℝ → ENNReal) (hF : Measurable fun p : (Fin n → ℝ) × ℝ => F p.1 p.2) :
    ∫⁻ x : Fin D → ℝ, ∫⁻ tau in Set.Ioi (0 : ℝ),
        F (x ∘ inds) tau * ENNReal.ofReal (Real.exp (logpdf (ggFixed x tau) phi (ggCgf phi) (ggF x tau)))
      = ∫⁻ y : Fin n → ℝ, ∫⁻ tau in Set.Ioi (0 : ℝ), F y tau * ENNReal.ofReal (gammaPdf (gg3 phi) (ggB phi) tau
          * gaussianPdf (ggMu phi ∘ inds) (tau • (((-2 : ℝ) • gg1 phi)⁻¹.submatrix inds inds)⁻¹) y) := by
  set L := (-2 : ℝ) • gg1 phi with hL
  have hC : (L⁻¹.submatrix inds inds).PosDef := posDef_submatrix h.inv hi
  have hm : Measurable fun x : Fin D → ℝ => x ∘ inds := measurable_pi_lambda _ fun k => measurable_pi_apply (inds k)
  have hG : Measurable fun p : (Fin D → ℝ) × ℝ => F (p.1 ∘ inds) p.2
      * ENNReal.ofReal (gammaPdf (gg3 phi) (ggB phi) p.2 * gaussianPdf (ggMu phi) (p.2 • L) p.1) :=
    (hF.comp ((hm.comp measurable_fst).prodMk measurable_snd)).mul (gg_measurable _ L _ _).ennreal_ofReal
  have hG' : Measurable fun p : (Fin n → ℝ) × ℝ => F p.1 p.2
      * ENNReal.ofReal (gammaPdf (gg3 phi) (ggB phi) p.2 * gaussianPdf (ggMu phi ∘ inds) (p.2 • (L⁻¹.submatrix inds inds)⁻¹) p.1) :=
    hF.mul (gg_measurable _ _ _ _).ennreal_ofReal
  have h1 : ∀ x : Fin D → ℝ, ∫⁻ tau in Set.Ioi (0 : ℝ),
        F (x ∘ inds) tau * ENNReal.ofReal (Real.exp (logpdf (ggFixed x tau) phi (ggCgf phi) (ggF x tau)))
      = ∫⁻ tau in Set.Ioi (0 : ℝ), F (x ∘ inds) tau
          * ENNReal.ofReal (gammaPdf (gg3 phi) (ggB phi) tau * gaussianPdf (ggMu phi) (tau • L) x) := fun x =>
    setLIntegral_congr_fun measurableSet_Ioi fun tau ht => by
      show _ * ENNReal.ofReal _ = _ * ENNReal.ofReal _
      rw [gg_density phi h hb ha x tau ht]
  simp only [h1]
  refine (lintegral_lintegral_swap hG.aemeasurable).trans (Eq.trans ?_ (lintegral_lintegral_swap hG'.aemeasurable).symm)
  refine setLIntegral_congr_fun measurableSet_Ioi fun tau ht => ?_
  have ht' : (0 : ℝ) < tau := ht
  have hg : 0 ≤ gammaPdf (gg3 phi) (ggB phi) tau := by
    have := Real.Gamma_pos_of_pos ha
    unfold gammaPdf
    positivity
  have hLt : (tau • L).PosDef := h.smul ht'
  have hinv : ((tau • L)⁻¹.submatrix inds inds)⁻¹ = tau • (L⁻¹.submatrix inds inds)⁻¹ := by
    have e : (tau • L)⁻¹ = tau⁻¹ • L⁻¹ := by
      apply Matrix.inv_eq_right_inv
      rw [smul_mul_smul_comm, mul_nonsing_inv _ (isUnit_iff_ne_zero.2 h.det_pos.ne'), mul_inv_cancel₀ ht'.ne', one_smul]
    rw [e]
    apply Matrix.inv_eq_right_inv
    rw [show (tau⁻¹ • L⁻¹).submatrix inds inds = tau⁻¹ • L⁻¹.submatrix inds inds from rfl, smul_mul_smul_comm,
      mul_nonsing_inv _ (isUnit_iff_ne_zero.2 hC.det_pos.ne'), inv_mul_cancel₀ ht'.ne', one_smul]
  have key := gaussian_marginal (ggMu phi) (tau • L) hLt inds hi
    (fun y => F y tau * ENNReal.ofReal (gammaPdf (gg3 phi) (ggB phi) tau))
    ((hF.comp measurable_prodMk_right).mul_const _)
  rw [hinv] at key
  simpa only [ENNReal.ofReal_mul hg, mul_assoc] using key

/-- **C63** The function that `get_marginal_logpdf(gaussian=inds)` would return is the logarithm of the density of these elements:
integrated over `S` it gives the probability that the elements `inds` of the vector lie in `S`, for every measurable `S`. -/
theorem C63_student_partial (h : ((-2 : ℝ) • gg1 phi).PosDef) (hb : 0 < ggB phi) (ha : 0 < gg3 phi) (inds : Fin n → Fin D)
    (hi : Function.Injective inds) :
    ∃ p, ggParams (some 1) phi (ggMoments phi) (some inds) false = .ok p ∧
      ∃ t : (Fin n → ℝ) → ℝ, (∀ x, ggMarginalT p inds x = .ok (t x)) ∧
        ∀ S : Set (Fin n → ℝ), MeasurableSet S →
          ∫⁻ x in {x : Fin D → ℝ | x ∘ inds ∈ S}, ∫⁻ tau in Set.Ioi (0 : ℝ),
              ENNReal.ofReal (Real.exp (logpdf (ggFixed x tau) phi (ggCgf phi) (ggF x tau)))
            = ∫⁻ x in S, ENNReal.ofReal (Real.exp (t x)) := by
  refine ⟨_, ggParams_eq phi hb ha (some inds) false (.inl rfl), ?_⟩
  set L := (-2 : ℝ) • gg1 phi with hL
  set a := gg3 phi
  set b := ggB phi
  set mu := ggMu phi
  have hC : (L⁻¹.submatrix inds inds).PosDef := posDef_submatrix h.inv hi
  have hSpd : ((1 / (a / b)) • L⁻¹.submatrix inds inds).PosDef := hC.smul (by positivity)
  obtain ⟨-, U, hU, hch⟩ | ⟨hn, -⟩ := chol_spec (posDef_transpose hSpd)
  swap
  · exact absurd hSpd hn
  refine ⟨fun x => randTLogpdf ((x - mu ∘ inds) ⬝ᵥ ((1 / (a / b)) • L⁻¹.submatrix inds inds)⁻¹ *ᵥ (x - mu ∘ inds))
    (Real.log ((1 / (a / b)) • L⁻¹.submatrix inds inds).det) (2 * a) n, fun x => ?_, fun S hS => ?_⟩
  · unfold ggMarginalT gaussianGammaToT
    simp only
    rw [hU]
    show Except.ok _ = _
    rw [hch.logdet, cholSolve, hch.eq]
  have hmS : MeasurableSet {x : Fin D → ℝ | x ∘ inds ∈ S} := by
    have : Measurable fun x : Fin D → ℝ => x ∘ inds := measurable_pi_lambda _ fun k => measurable_pi_apply (inds k)
    exact this hS
  have key := gg_marginal phi h hb ha inds hi (fun y _ => S.indicator 1 y) ((measurable_one.indicator hS).comp measurable_fst)
  rw [← lintegral_indicator hmS, ← lintegral_indicator hS]
  refine Eq.trans (lintegral_congr fun x => ?_) (key.trans (lintegral_congr fun y => ?_))
  · by_cases hx : x ∘ inds ∈ S
    · rw [Set.indicator_of_mem (show x ∈ {x : Fin D → ℝ | x ∘ inds ∈ S} from hx)]
      simp only [Set.indicator_of_mem hx, Pi.one_apply, one_mul]
    · rw [Set.indicator_of_notMem (show x ∉ {x : Fin D → ℝ | x ∘ inds ∈ S} from hx)]
      simp only [Set.indicator_of_notMem hx, zero_mul, lintegral_zero]
  · by_cases hy : y ∈ S
    · rw [Set.indicator_of_mem hy]
      simp only [Set.indicator_of_mem hy, Pi.one_apply, one_mul]
      rw [student_integral _ _ hC _ _ ha hb, Fintype.card_fin]
    · rw [Set.indicator_of_notMem hy]
      simp only [Set.indicator_of_notMem hy, zero_mul, lintegral_zero]

/-- **C63** The function that `get_marginal_logpdf(gamma=True)` would return is the logarithm of the density of the gamma number. -/
theorem C63_gamma_partial (h : ((-2 : ℝ) • gg1 phi).PosDef) (hb : 0 < ggB phi) (ha : 0 < gg3 phi) :
    ∃ p, ggParams (n := n) (some 1) phi (ggMoments phi) none true = .ok p ∧
      ∀ tau, 0 < tau → ∫⁻ x : Fin D → ℝ, ENNReal.ofReal (Real.exp (logpdf (ggFixed x tau) phi (ggCgf phi) (ggF x tau)))
        = ENNReal.ofReal (Real.exp (ggMarginalGamma p tau)) := by
  refine ⟨_, ggParams_eq phi hb ha none true (.inr rfl), fun tau ht => ?_⟩
  have hG := Real.Gamma_pos_of_pos ha
  have hg : 0 < gammaPdf (gg3 phi) (ggB phi) tau := by
    unfold gammaPdf
    positivity
  simp only [gg_density phi h hb ha _ tau ht, ENNReal.ofReal_mul hg.le]
  rw [lintegral_const_mul _ (measurable_gaussianPdf _ _).ennreal_ofReal, lintegral_gaussianPdf _ (h.smul ht), mul_one,
    ← Real.exp_log hg]
  congr 2
  unfold gammaPdf ggMarginalGamma randGammaLogpdf gammaln
  rw [Real.log_mul (by positivity) (by positivity), Real.log_mul (by positivity) (by positivity),
    Real.log_div (by positivity) (by positivity), Real.log_rpow hb, Real.log_rpow ht, Real.log_exp]
  ring

/-- The value of the function for both kinds of variables: the determinant of the covariance is a factor too many. -/
theorem joint_value (h : ((-2 : ℝ) • gg1 phi).PosDef) (hb : 0 < ggB phi) (ha : 0 < gg3 phi) (inds : Fin n → Fin D)
    (hi : Function.Injective inds) :
    ∃ j : (Fin n → ℝ) → ℝ → ℝ,
      (∀ x tau, ggMarginalJoint ⟨ggMu phi, ((-2 : ℝ) • gg1 phi)⁻¹, gg3 phi, ggB phi⟩ inds x tau = .ok (j x tau)) ∧
        ∀ x tau, 0 < tau → Real.exp (j x tau) = (((-2 : ℝ) • gg1 phi)⁻¹.submatrix inds inds).det *
          (gammaPdf (gg3 phi) (ggB phi) tau
            * gaussianPdf (ggMu phi ∘ inds) (tau • (((-2 : ℝ) • gg1 phi)⁻¹.submatrix inds inds)⁻¹) x) := by
  set L := (-2 : ℝ) • gg1 phi with hL
  set a := gg3 phi
  set b := ggB phi
  set mu := ggMu phi
  have hC : (L⁻¹.submatrix inds inds).PosDef := posDef_submatrix h.inv hi
  obtain ⟨-, U, hU, hch⟩ | ⟨hn, -⟩ := chol_spec (posDef_transpose hC)
  swap
  · exact absurd hC hn
  refine ⟨fun x tau => randGaussianLogpdf (tau * ((x - mu ∘ inds) ⬝ᵥ (L⁻¹.submatrix inds inds)⁻¹ *ᵥ (x - mu ∘ inds))) 0 0
    (Real.log (L⁻¹.submatrix inds inds).det + n * Real.log tau) n
    + randGammaLogpdf (b * tau) (Real.log tau) (a * Real.log tau) (a * Real.log b) (gammaln a), fun x tau => ?_, fun x tau ht => ?_⟩
  · unfold ggMarginalJoint
    simp only
    rw [hU]
    show Except.ok _ = _
    have e : (x - mu ∘ inds) ⬝ᵥ (fun i => cholSolve U (x - mu ∘ inds) i * tau)
        = tau * ((x - mu ∘ inds) ⬝ᵥ (L⁻¹.submatrix inds inds)⁻¹ *ᵥ (x - mu ∘ inds)) := by
      rw [cholSolve, hch.eq]
      simp only [dotProduct, Finset.mul_sum]
      exact Finset.sum_congr rfl fun i _ => by ring
    rw [hch.logdet, e]
  have hd := hC.det_pos
  have hPd := hC.inv.det_pos
  have hG := Real.Gamma_pos_of_pos ha
  set q := (x - mu ∘ inds) ⬝ᵥ (L⁻¹.submatrix inds inds)⁻¹ *ᵥ (x - mu ∘ inds) with hq
  have hp : 0 < (L⁻¹.submatrix inds inds).det * (gammaPdf a b tau * gaussianPdf (mu ∘ inds) (tau • (L⁻¹.submatrix inds inds)⁻¹) x) := by
    have := gaussianPdf_pos (mu ∘ inds) (hC.inv.smul ht) x
    unfold gammaPdf
    positivity
  rw [← Real.exp_log hp]
  congr 1
  rw [gaussianPdf_smul, ← hq, Fintype.card_fin, gammaPdf, Real.log_mul (by positivity) (by positivity),
    Real.log_mul (x := b ^ a / Real.Gamma a * tau ^ (a - 1) * Real.exp (-(b * tau))) (by positivity) (by positivity),
    Real.log_mul (x := b ^ a / Real.Gamma a * tau ^ (a - 1)) (by positivity) (by positivity),
    Real.log_mul (x := b ^ a / Real.Gamma a) (by positivity) (by positivity),
    Real.log_div (by positivity) (by positivity), Real.log_rpow hb, Real.log_rpow ht, Real.log_exp,
    Real.log_mul (y := Real.exp (-1 / 2 * (tau * q))) (by positivity) (by positivity), Real.log_exp,
    Real.log_mul (x := (2 * Real.pi) ^ (-(n : ℝ) / 2)) (by positivity) (by positivity), Real.log_rpow (by positivity),
    Real.log_rpow (by positivity), Real.log_mul (x := tau ^ n) (by positivity) (by positivity), Real.log_pow,
    det_nonsing_inv, Ring.inverse_eq_inv', Real.log_inv]
  unfold randGaussianLogpdf randGammaLogpdf gammaln
  ring

/-- The density of the pair integrates to one. -/
theorem gg_total (h : ((-2 : ℝ) • gg1 phi).PosDef) (hb : 0 < ggB phi) (ha : 0 < gg3 phi) :
    ∫⁻ x : Fin D → ℝ, ∫⁻ tau in Set.Ioi (0 : ℝ),
      ENNReal.ofReal (Real.exp (logpdf (ggFixed x tau) phi (ggCgf phi) (ggF x tau))) = 1 := by
  have k := gg_marginal phi h hb ha id Function.injective_id (fun _ _ => 1) measurable_const
  simp only [one_mul, Function.comp_id] at k
  have hC : (((-2 : ℝ) • gg1 phi)⁻¹.submatrix id id).PosDef := h.inv
  rw [k, lintegral_lintegral_swap (gg_measurable _ _ _ _).ennreal_ofReal.aemeasurable]
  have hG := Real.Gamma_pos_of_pos ha
  have e : ∀ tau ∈ Set.Ioi (0 : ℝ), ∫⁻ y : Fin D → ℝ, ENNReal.ofReal (gammaPdf (gg3 phi) (ggB phi) tau
        * gaussianPdf (ggMu phi) (tau • (((-2 : ℝ) • gg1 phi)⁻¹.submatrix id id)⁻¹) y)
      = ENNReal.ofReal (ggB phi ^ gg3 phi / Real.Gamma (gg3 phi) * (tau ^ (gg3 phi - 1) * Real.exp (-(ggB phi * tau)))) := by
    intro tau ht
    have ht' : (0 : ℝ) < tau := ht
    have hg : 0 ≤ gammaPdf (gg3 phi) (ggB phi) tau := by
      unfold gammaPdf
      positivity
    simp only [ENNReal.ofReal_mul hg]
    rw [lintegral_const_mul' _ _ ENNReal.ofReal_ne_top, lintegral_gaussianPdf _ (hC.inv.smul ht'), mul_one, gammaPdf]
    congr 1
    ring
  rw [setLIntegral_congr_fun measurableSet_Ioi e, integral_rpow_exp ha hb _ (by positivity), one_div, Real.inv_rpow hb.le,
    ← ENNReal.ofReal_one]
  congr 1
  have := Real.rpow_pos_of_pos hb (gg3 phi)
  field_simp

/-- **C63** The function that `get_marginal_logpdf(gaussian=inds, gamma=True)` would return: its exponential is the joint density
times the determinant of the covariance of these elements. -/
theorem C63_joint_partial (h : ((-2 : ℝ) • gg1 phi).PosDef) (hb : 0 < ggB phi) (ha : 0 < gg3 phi) (inds : Fin n → Fin D)
    (hi : Function.Injective inds) :
    ∃ p, ggParams (some 1) phi (ggMoments phi) (some inds) true = .ok p ∧
      ∃ j : (Fin n → ℝ) → ℝ → ℝ, (∀ x tau, ggMarginalJoint p inds x tau = .ok (j x tau)) ∧
        ∀ S : Set ((Fin n → ℝ) × ℝ), MeasurableSet S →
          ∫⁻ x : Fin n → ℝ, ∫⁻ tau in Set.Ioi (0 : ℝ), S.indicator 1 (x, tau) * ENNReal.ofReal (Real.exp (j x tau))
            = ENNReal.ofReal (((-2 : ℝ) • gg1 phi)⁻¹.submatrix inds inds).det *
              ∫⁻ x : Fin D → ℝ, ∫⁻ tau in Set.Ioi (0 : ℝ), S.indicator 1 (x ∘ inds, tau) *
                ENNReal.ofReal (Real.exp (logpdf (ggFixed x tau) phi (ggCgf phi) (ggF x tau))) := by
  refine ⟨_, ggParams_eq phi hb ha (some inds) true (.inl rfl), ?_⟩
  obtain ⟨j, hj, hv⟩ := joint_value phi h hb ha inds hi
  refine ⟨j, hj, fun S hS => ?_⟩
  rw [gg_marginal phi h hb ha inds hi (fun y tau => S.indicator 1 (y, tau)) (measurable_one.indicator hS),
    ← lintegral_const_mul' _ _ ENNReal.ofReal_ne_top]
  refine lintegral_congr fun y => ?_
  rw [← lintegral_const_mul' _ _ ENNReal.ofReal_ne_top]
  refine setLIntegral_congr_fun measurableSet_Ioi fun tau ht => ?_
  rw [hv y tau ht, ENNReal.ofReal_mul (posDef_submatrix h.inv hi).det_pos.le]
  ring

/-- **C63** The location returned by `get_gaussian_location` is the mean of the vector. -/
theorem C63_location (h : ((-2 : ℝ) • gg1 phi).PosDef) (hb : 0 < ggB phi) (ha : 0 < gg3 phi) (i : Fin D) :
    ∫ tau in Set.Ioi (0 : ℝ), ∫ x : Fin D → ℝ, x i * Real.exp (logpdf (ggFixed x tau) phi (ggCgf phi) (ggF x tau))
      = ggLocation (ggMoments phi) i := by
  have hm0 : ggMarginal phi 0 < 0 := by show -ggB phi < 0; linarith
  rw [ggLocation, ggMoments_mu phi hb ha, ← mul_one (ggMu phi i), ← C22_gamma_normaliser (ggMarginal phi) hm0 ha,
    ← integral_const_mul]
  refine setIntegral_congr_fun measurableSet_Ioi fun tau ht => ?_
  obtain ⟨-, hpd, -, hmu⟩ := gg_conditional phi h tau ht
  have e := fun x : Fin D → ℝ => gg_factor phi h x tau ht
  simp only [e]
  rw [← hmu, mul_comm]
  refine Eq.trans ?_ (congrArg _ (C22_gaussian_mean _ hpd i))
  rw [← integral_const_mul]
  exact integral_congr_ae (Filter.Eventually.of_forall fun x => by ring)

/-- The variance of an element of a Gaussian vector -/
theorem lintegral_gaussian_variance (mu : Fin D → ℝ) {L : Matrix (Fin D) (Fin D) ℝ} (hL : L.PosDef) (i : Fin D) :
    ∫⁻ x, ENNReal.ofReal ((x i - mu i) ^ 2 * gaussianPdf mu L x) = ENNReal.ofReal (L⁻¹ i i) := by
  obtain ⟨ph, h1, h2⟩ := gaussianPdf_natural (0 : Fin D → ℝ) hL
  have hs : ∀ x, gaussianPdf mu L x = gaussianPdf 0 L (x - mu) := fun x => by simp only [gaussianPdf, sub_zero]
  have h0 : ∫ x : Fin D → ℝ, x i ^ 2 * gaussianPdf 0 L x = L⁻¹ i i := by
    have := C22_gaussian_second ph (by rwa [h1]) i i
    rw [show gaussianMoments ph (.inr (i, i)) = L⁻¹ i i by
      show ((-2 : ℝ) • g1 ph)⁻¹ i i + (((-2 : ℝ) • g1 ph)⁻¹ *ᵥ g0 ph) i * (((-2 : ℝ) • g1 ph)⁻¹ *ᵥ g0 ph) i = _
      rw [h2, h1]
      simp] at this
    rw [← this]
    refine integral_congr_ae (Filter.Eventually.of_forall fun x => ?_)
    dsimp only
    rw [exp_logpdf_gaussianPdf ph (by rwa [h1]), h2, h1, sq]
  have hii : 0 < L⁻¹ i i := hL.inv.diag_pos
  have hint : Integrable fun x : Fin D → ℝ => x i ^ 2 * gaussianPdf 0 L x := by
    by_contra hn
    rw [integral_undef hn] at h0
    exact hii.ne h0
  rw [← h0, ofReal_integral_eq_lintegral_ofReal hint
    (Filter.Eventually.of_forall fun x => mul_nonneg (sq_nonneg _) (gaussianPdf_pos _ hL x).le)]
  refine Eq.trans ?_ (lintegral_sub_right_eq_self (fun x : Fin D → ℝ => ENNReal.ofReal (x i ^ 2 * gaussianPdf 0 L x)) mu)
  simp only [hs, Pi.sub_apply]

/-- **C63** The mean and variance that `get_gaussian_mean_and_variance` would return are those of the distribution, whenever the
variance exists. -/
theorem C63_mean_variance_partial (h : ((-2 : ℝ) • gg1 phi).PosDef) (hb : 0 < ggB phi) (ha : 1 < gg3 phi) :
    ∃ m v, ggMeanAndVariance (some 1) phi (ggMoments phi) = .ok (m, v) ∧ ∀ i,
      (∫ tau in Set.Ioi (0 : ℝ), ∫ x : Fin D → ℝ, x i * Real.exp (logpdf (ggFixed x tau) phi (ggCgf phi) (ggF x tau)) = m i) ∧
      (∫⁻ tau in Set.Ioi (0 : ℝ), ∫⁻ x : Fin D → ℝ,
        ENNReal.ofReal ((x i - m i) ^ 2 * Real.exp (logpdf (ggFixed x tau) phi (ggCgf phi) (ggF x tau))) = ENNReal.ofReal (v i)) := by
  have ha0 : 0 < gg3 phi := by linarith
  unfold ggMeanAndVariance
  simp only [ne_eq, not_true_eq_false, if_false]
  rw [if_neg (by linarith), if_neg (by linarith)]
  refine ⟨_, _, rfl, fun i => ⟨C63_location phi h hb ha0 i, ?_⟩⟩
  set L := (-2 : ℝ) • gg1 phi with hL
  have hcov : gg1 (ggMoments phi) i i - gg0 (ggMoments phi) i * (gg0 (ggMoments phi) i / gg2 (ggMoments phi)) = L⁻¹ i i := by
    have := congrFun (congrFun (ggMoments_cov phi hb ha0) i) i
    rw [← this, ggMoments_mu phi hb ha0]
    rfl
  rw [hcov, ggMoments_mu phi hb ha0, ggMoments_u2]
  have hii : 0 < L⁻¹ i i := h.inv.diag_pos
  have hG := Real.Gamma_pos_of_pos ha0
  have e : ∀ tau ∈ Set.Ioi (0 : ℝ), ∫⁻ x : Fin D → ℝ,
        ENNReal.ofReal ((x i - ggMu phi i) ^ 2 * Real.exp (logpdf (ggFixed x tau) phi (ggCgf phi) (ggF x tau)))
      = ENNReal.ofReal ((L⁻¹ i i * (ggB phi ^ gg3 phi / Real.Gamma (gg3 phi))) *
          (tau ^ (gg3 phi - 1 - 1) * Real.exp (-(ggB phi * tau)))) := by
    intro tau ht
    have ht' : (0 : ℝ) < tau := ht
    have hg : 0 ≤ gammaPdf (gg3 phi) (ggB phi) tau := by
      unfold gammaPdf
      positivity
    have hinv : (tau • L)⁻¹ i i = tau⁻¹ * L⁻¹ i i := by
      have e : (tau • L)⁻¹ = tau⁻¹ • L⁻¹ := by
        apply Matrix.inv_eq_right_inv
        rw [smul_mul_smul_comm, mul_nonsing_inv _ (isUnit_iff_ne_zero.2 h.det_pos.ne'), mul_inv_cancel₀ ht'.ne', one_smul]
      rw [e]
      rfl
    simp only [gg_density phi h hb ha0 _ tau ht', ← hL, mul_left_comm _ (gammaPdf _ _ _), ENNReal.ofReal_mul hg]
    rw [lintegral_const_mul' _ _ ENNReal.ofReal_ne_top, lintegral_gaussian_variance _ (h.smul ht'), ← ENNReal.ofReal_mul hg, hinv]
    congr 1
    unfold gammaPdf
    rw [Real.rpow_sub_one ht'.ne' (gg3 phi - 1)]
    field_simp
  rw [setLIntegral_congr_fun measurableSet_Ioi e, integral_rpow_exp (by linarith) hb _ (by positivity)]
  congr 1
  have hG1 : Real.Gamma (gg3 phi) = (gg3 phi - 1) * Real.Gamma (gg3 phi - 1) := by
    rw [← Real.Gamma_add_one (by linarith), sub_add_cancel]
  have hG1p := Real.Gamma_pos_of_pos (show 0 < gg3 phi - 1 by linarith)
  rw [hG1, one_div, Real.inv_rpow hb.le, Real.rpow_sub_one hb.ne']
  have h1 : gg3 phi - 1 ≠ 0 := by linarith
  have h2 : 2 * gg3 phi - 2 ≠ 0 := by linarith
  have h3 : ggB phi ^ gg3 phi ≠ 0 := (Real.rpow_pos_of_pos hb _).ne'
  field_simp

/-- The panel of variable `i` of `plotmatrix`: the squared scale is divided twice by the mean of the gamma number, so the variance
of the density drawn is the variance of the variable divided by that mean. -/
theorem C63_plot_partial (hb : 0 < ggB phi) (ha : 1 < gg3 phi) (i : Fin D) :
    ∃ m v, ggMeanAndVariance (some 1) phi (ggMoments phi) = .ok (m, v) ∧
      (ggPlotT phi (ggMoments phi) i).1 = m i ∧ (ggPlotT phi (ggMoments phi) i).2.2 = 2 * gg3 phi ∧
      2 * gg3 phi / (2 * gg3 phi - 2) * (ggPlotT phi (ggMoments phi) i).2.1 = v i / (gg3 phi / ggB phi) := by
  have ha0 : 0 < gg3 phi := by linarith
  unfold ggMeanAndVariance
  simp only [ne_eq, not_true_eq_false, if_false]
  rw [if_neg (by linarith), if_neg (by linarith)]
  refine ⟨_, _, rfl, rfl, rfl, ?_⟩
  have hmu : (fun i => gg0 (ggMoments phi) i / gg2 (ggMoments phi)) = ggMu phi := funext (ggMoments_mu phi hb ha0)
  simp only [ggPlotT, gaussianGammaToT, hmu, ggMoments_cov phi hb ha0]
  simp only [ggMoments_mu phi hb ha0]
  have hcov : gg1 (ggMoments phi) i i - gg0 (ggMoments phi) i * ggMu phi i = ((-2 : ℝ) • gg1 phi)⁻¹ i i :=
    congrFun (congrFun (ggMoments_cov phi hb ha0) i) i
  have hB : -gg2 phi - 0.5 * gg0 phi ⬝ᵥ ggMu phi = ggB phi := by rw [ggB, dotProduct_comm]
  rw [hcov, hB, ggMoments_u2]
  show _ * (1 / (gg3 phi / ggB phi) * (1 / (gg3 phi / ggB phi) * ((-2 : ℝ) • gg1 phi)⁻¹ i i)) = _
  ring

end

/-! ### A concrete node -/

/-- A node whose vector has mean `(1, 1)` and precision `[[2, 1], [1, 2]]` times a gamma number of shape 2 and rate 1 -/
noncomputable def marginalExample : GGIx (Fin 2) → ℝ := mkGG ![3, 3] !![-1, -0.5; -0.5, -1] (-4) 2

theorem marginalExample_L : (-2 : ℝ) • gg1 marginalExample = !![2, 1; 1, 2] := by
  show (-2 : ℝ) • !![(-1 : ℝ), -0.5; -0.5, -1] = _
  ext i j
  fin_cases i <;> fin_cases j <;> norm_num

theorem marginalExample_inv : ((-2 : ℝ) • gg1 marginalExample)⁻¹ = !![2 / 3, -1 / 3; -1 / 3, 2 / 3] := by
  rw [marginalExample_L]
  apply Matrix.inv_eq_right_inv
  ext i j
  fin_cases i <;> fin_cases j <;> norm_num [Matrix.mul_apply, Fin.sum_univ_two]

theorem marginalExample_ok : ((-2 : ℝ) • gg1 marginalExample).PosDef ∧ ggB marginalExample = 1 ∧ gg3 marginalExample = 2 := by
  refine ⟨?_, ?_, rfl⟩
  · rw [marginalExample_L]
    refine .of_dotProduct_mulVec_pos (by ext i j; fin_cases i <;> fin_cases j <;> simp) fun x hx => ?_
    simp only [dotProduct, mulVec, Fin.sum_univ_two, star_trivial, of_apply, cons_val_zero, cons_val_one, cons_val', cons_val_fin_one]
    have : x 0 ≠ 0 ∨ x 1 ≠ 0 := by
      by_contra hc
      push Not at hc
      exact hx (funext fun i => by fin_cases i <;> simp [hc.1, hc.2])
    rcases this with h | h
    · nlinarith [sq_nonneg (x 0 + x 1), pow_pos (abs_pos.2 h) 2, sq_abs (x 0), sq_nonneg (x 1)]
    · nlinarith [sq_nonneg (x 0 + x 1), pow_pos (abs_pos.2 h) 2, sq_abs (x 1), sq_nonneg (x 0)]
  · have hmu : ggMu marginalExample = ![1, 1] := by
      rw [ggMu, marginalExample_inv]
      show _ *ᵥ ![(3 : ℝ), 3] = _
      ext i
      fin_cases i <;> norm_num [mulVec, dotProduct, Fin.sum_univ_two]
    rw [ggB, hmu]
    show -(-4 : ℝ) - 0.5 * (![1, 1] ⬝ᵥ ![(3 : ℝ), 3]) = 1
    norm_num [dotProduct, Fin.sum_univ_two]

/-- **The joint marginal is not a density**: for this node the exponential of the function of the first element and the gamma number
integrates to 2/3. -/
theorem C63_joint_refuted : ∃ (phi : GGIx (Fin 2) → ℝ) (p : GGParams 2) (j : (Fin 1 → ℝ) → ℝ → ℝ),
    ((-2 : ℝ) • gg1 phi).PosDef ∧ 0 < ggB phi ∧ 0 < gg3 phi ∧
      ggParams (some 1) phi (ggMoments phi) (some ![0]) true = .ok p ∧ (∀ x tau, ggMarginalJoint p ![0] x tau = .ok (j x tau)) ∧
      ∫⁻ x : Fin 1 → ℝ, ∫⁻ tau in Set.Ioi (0 : ℝ), ENNReal.ofReal (Real.exp (j x tau)) = ENNReal.ofReal (2 / 3) := by
  obtain ⟨h, hb, ha⟩ := marginalExample_ok
  have hb' : 0 < ggB marginalExample := by rw [hb]; exact one_pos
  have ha' : 0 < gg3 marginalExample := by rw [ha]; exact two_pos
  obtain ⟨p, hp, j, hj, hS⟩ := C63_joint_partial marginalExample h hb' ha' ![0] (fun a b _ => Subsingleton.elim a b)
  refine ⟨_, p, j, h, hb', ha', hp, hj, ?_⟩
  have := hS Set.univ MeasurableSet.univ
  simp only [Set.indicator_univ, Pi.one_apply, one_mul] at this
  rw [this, marginalExample_inv]
  have hone : ∫⁻ x : Fin 2 → ℝ, ∫⁻ tau in Set.Ioi (0 : ℝ),
      ENNReal.ofReal (Real.exp (logpdf (ggFixed x tau) marginalExample (ggCgf marginalExample) (ggF x tau))) = 1 := by
    exact gg_total marginalExample h hb' ha'
  rw [hone, mul_one]
  congr 1
  rw [Matrix.det_fin_one]
  rfl

/-- **`plotmatrix` draws the wrong density**: for this node the variance of the density in the panel of a variable is half its
variance. -/
theorem C63_plot_refuted : ∃ (phi : GGIx (Fin 2) → ℝ) (m v : Fin 2 → ℝ),
    ((-2 : ℝ) • gg1 phi).PosDef ∧ 0 < ggB phi ∧ 1 < gg3 phi ∧ ggMeanAndVariance (some 1) phi (ggMoments phi) = .ok (m, v) ∧
      v 0 = 2 / 3 ∧ (ggPlotT phi (ggMoments phi) 0).2.2 = 4 ∧ 4 / (4 - 2) * (ggPlotT phi (ggMoments phi) 0).2.1 = 1 / 3 := by
  obtain ⟨h, hb, ha⟩ := marginalExample_ok
  obtain ⟨m, v, hm, -, hnu, hS⟩ := C63_plot_partial marginalExample (by rw [hb]; exact one_pos) (by rw [ha]; norm_num) 0
  rw [ha, hb] at hS
  rw [ha] at hnu
  have hv : v 0 = 2 / 3 := by
    have hm' := hm
    unfold ggMeanAndVariance at hm'
    simp only [ne_eq, not_true_eq_false, if_false] at hm'
    rw [if_neg (by rw [ha]; norm_num), if_neg (by rw [ha]; norm_num)] at hm'
    injection hm' with hm'
    have := congrFun (congrArg Prod.snd hm') 0
    have hcov := congrFun (congrFun (ggMoments_cov marginalExample (by rw [hb]; exact one_pos) (by rw [ha]; norm_num)) 0) 0
    rw [marginalExample_inv] at hcov
    have hcov' : gg1 (ggMoments marginalExample) 0 0 - gg0 (ggMoments marginalExample) 0 * ggMu marginalExample 0 = 2 / 3 := hcov
    dsimp only at this
    rw [← this, ggMoments_mu marginalExample (by rw [hb]; exact one_pos) (by rw [ha]; norm_num), hcov', ggMoments_u2, ha, hb]
    norm_num
  refine ⟨_, m, v, h, by rw [hb]; exact one_pos, by rw [ha]; norm_num, hm, hv, by rw [hnu]; norm_num, ?_⟩
  rw [hv] at hS
  norm_num at hS ⊢
  linarith

/-- The hypotheses of the theorems above hold for this node. -/
example : ∃ p, ggParams (some 1) marginalExample (ggMoments marginalExample) (some ![(1 : Fin 2)]) false = .ok p :=
  let ⟨h, hb, ha⟩ := marginalExample_ok
  let ⟨p, hp, _⟩ := C63_student_partial marginalExample h (by rw [hb]; exact one_pos) (by rw [ha]; exact two_pos) ![1]
    (fun a b _ => Subsingleton.elim a b)
  ⟨p, hp⟩

end Verif
