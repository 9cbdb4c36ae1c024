import Verif.Props.Marginals
import Mathlib.Data.Sym.Sym2
import Mathlib.Analysis.Matrix.Order

/-!
# The multivariate gamma integral

Lebesgue measure on the symmetric matrices over `ι` is the volume of `Sym2 ι → ℝ`: one coordinate for each unordered pair of
indices.  The integral of `det X ^ (a - (d+1)/2) * exp (-tr (P X))` over the positive definite matrices is
`Γ_d(a) * det P ^ (-a)`.  The proof takes off one row and one column at a time.
-/

namespace Verif
open Spec MeasureTheory Matrix

section
variable {ι κ : Type} [Fintype ι] [DecidableEq ι] [Fintype κ] [DecidableEq κ]

/-- a symmetric matrix from its entries -/
def symMat {ι : Type} (v : Sym2 ι → ℝ) : Matrix ι ι ℝ := Matrix.of fun i j => v s(i, j)

/-- the positive definite matrices -/
def posDefCone (ι : Type) [Fintype ι] : Set (Sym2 ι → ℝ) := {v | (symMat v).PosDef}

omit [Fintype ι] [DecidableEq ι] in
theorem symMat_isHermitian (v : Sym2 ι → ℝ) : (symMat v).IsHermitian := by
  ext i j
  simp [symMat, Sym2.eq_swap]

omit [DecidableEq ι] in
theorem mem_posDefCone_iff [DecidableEq ι] (v : Sym2 ι → ℝ) :
    v ∈ posDefCone ι ↔ (∀ x : ι → ℝ, 0 ≤ x ⬝ᵥ symMat v *ᵥ x) ∧ (symMat v).det ≠ 0 := by
  constructor
  · intro h
    refine ⟨fun x => ?_, h.det_pos.ne'⟩
    simpa using h.posSemidef.dotProduct_mulVec_nonneg x
  · rintro ⟨h1, h2⟩
    have hp : (symMat v).PosSemidef := .of_dotProduct_mulVec_nonneg (symMat_isHermitian v) (by simpa using h1)
    exact hp.posDef_iff_det_ne_zero.2 h2

theorem continuous_symMat : Continuous fun v : Sym2 ι → ℝ => symMat v :=
  continuous_pi fun i => continuous_pi fun j => continuous_apply s(i, j)

theorem measurableSet_posDefCone : MeasurableSet (posDefCone ι) := by
  have e : posDefCone ι = (⋂ x : ι → ℝ, {v | 0 ≤ x ⬝ᵥ symMat v *ᵥ x}) ∩ {v | (symMat v).det ≠ 0} := by
    ext v
    rw [mem_posDefCone_iff]
    simp
  rw [e]
  refine MeasurableSet.inter (IsClosed.measurableSet (isClosed_iInter fun x => ?_)) (IsOpen.measurableSet ?_)
  · exact isClosed_le continuous_const (continuous_const.dotProduct (continuous_symMat.matrix_mulVec continuous_const))
  · exact isOpen_ne_fun continuous_symMat.matrix_det continuous_const

/-- the integrand -/
noncomputable def wishartKernel (a : ℝ) (P X : Matrix ι ι ℝ) : ℝ :=
  X.det ^ (a - ((Fintype.card ι : ℝ) + 1) / 2) * Real.exp (-∑ i, ∑ j, P i j * X i j)

/-- the multivariate gamma function -/
noncomputable def multiGamma (a : ℝ) (d : ℕ) : ℝ :=
  Real.pi ^ ((d : ℝ) * (d - 1) / 4) * ∏ j ∈ Finset.range d, Real.Gamma (a - 0.5 * j)

/-- the claim for matrices over `ι` -/
def WishartInt (ι : Type) [Fintype ι] [DecidableEq ι] : Prop :=
  ∀ (P : Matrix ι ι ℝ), P.PosDef → ∀ a : ℝ, ((Fintype.card ι : ℝ) - 1) / 2 < a →
    ∫⁻ v in posDefCone ι, ENNReal.ofReal (wishartKernel a P (symMat v))
      = ENNReal.ofReal (multiGamma a (Fintype.card ι) * P.det ^ (-a))

theorem measurable_wishartKernel (a : ℝ) (P : Matrix ι ι ℝ) :
    Measurable fun v : Sym2 ι → ℝ => ENNReal.ofReal (wishartKernel a P (symMat v)) := by
  refine Measurable.ennreal_ofReal ?_
  unfold wishartKernel
  refine Measurable.mul ?_ ?_
  · exact (continuous_symMat.matrix_det.measurable).pow_const _
  · refine Real.measurable_exp.comp (Measurable.neg ?_)
    simp only [symMat, of_apply]
    fun_prop

theorem wishartInt_empty [IsEmpty ι] : WishartInt ι := by
  intro P _ a _
  have hu : posDefCone ι = Set.univ := by
    ext v
    simp only [Set.mem_univ, iff_true]
    rw [mem_posDefCone_iff]
    simp [dotProduct]
  have hv : (volume : Measure (Sym2 ι → ℝ)) Set.univ = 1 := by
    rw [volume_pi, Measure.pi_univ]; simp
  rw [hu, Measure.restrict_univ, lintegral_unique, hv]
  simp [wishartKernel, multiGamma]

/-! ### Relabelling the indices -/

theorem piCongrLeft_eq {α β : Type} (e : α ≃ β) (x : α → ℝ) : (MeasurableEquiv.piCongrLeft (fun _ : β => ℝ) e) x = x ∘ e.symm := by
  funext i
  obtain ⟨k, rfl⟩ := e.surjective i
  rw [MeasurableEquiv.coe_piCongrLeft, Equiv.piCongrLeft_apply_apply]
  simp

/-- relabelled unordered pairs -/
def sym2Congr {ι κ : Type} (e : κ ≃ ι) : Sym2 κ ≃ Sym2 ι where
  toFun := Sym2.map e
  invFun := Sym2.map e.symm
  left_inv z := by induction z with | _ i j => simp
  right_inv z := by induction z with | _ i j => simp

omit [Fintype ι] [DecidableEq ι] [Fintype κ] [DecidableEq κ] in
theorem symMat_congr (e : κ ≃ ι) (v : Sym2 κ → ℝ) :
    symMat (v ∘ (sym2Congr e).symm) = (symMat v).submatrix e.symm e.symm := by
  ext i j
  simp [symMat, sym2Congr]

theorem wishartInt_congr (e : κ ≃ ι) (h : WishartInt κ) : WishartInt ι := by
  intro P hP a ha
  have hc : Fintype.card κ = Fintype.card ι := Fintype.card_congr e
  have hP' : (P.submatrix e e).PosDef := hP.submatrix e.injective
  have hk := h (P.submatrix e e) hP' a (by rwa [hc])
  rw [det_submatrix_equiv_self, hc] at hk
  rw [← hk, ← lintegral_indicator measurableSet_posDefCone, ← lintegral_indicator measurableSet_posDefCone]
  have hmp := volume_measurePreserving_piCongrLeft (fun _ : Sym2 ι => ℝ) (sym2Congr e)
  rw [← hmp.lintegral_comp_emb (MeasurableEquiv.measurableEmbedding _)]
  refine lintegral_congr fun v => ?_
  rw [piCongrLeft_eq]
  have hiff : v ∘ (sym2Congr e).symm ∈ posDefCone ι ↔ v ∈ posDefCone κ := by
    unfold posDefCone
    rw [Set.mem_ofPred_eq, Set.mem_ofPred_eq, symMat_congr]
    constructor
    · intro h
      have := h.submatrix e.injective
      simpa using this
    · intro h
      exact h.submatrix e.symm.injective
  by_cases hv : v ∈ posDefCone κ
  · rw [Set.indicator_of_mem hv, Set.indicator_of_mem (hiff.2 hv), symMat_congr]
    congr 1
    unfold wishartKernel
    rw [det_submatrix_equiv_self, hc]
    congr 3
    rw [← e.sum_comp]
    refine Finset.sum_congr rfl fun i _ => ?_
    rw [← e.sum_comp]
    refine Finset.sum_congr rfl fun j _ => ?_
    simp
  · rw [Set.indicator_of_notMem hv, Set.indicator_of_notMem fun h => hv (hiff.1 h)]

/-! ### One more row and column -/

/-- unordered pairs of indices with one more index -/
noncomputable def sym2Border (κ : Type) : Unit ⊕ (κ ⊕ Sym2 κ) ≃ Sym2 (Unit ⊕ κ) :=
  Equiv.ofBijective
    (Sum.elim (fun _ => s(Sum.inl (), Sum.inl ())) (Sum.elim (fun j => s(Sum.inl (), Sum.inr j)) (Sym2.map Sum.inr))) (by
      constructor
      · rintro (_ | i | z) (_ | j | w) h
        · rfl
        · simp at h
        · induction w with | _ k l => simp at h
        · simp at h
        · simp at h; subst h; rfl
        · induction w with | _ k l => simp at h
        · induction z with | _ k l => simp at h
        · induction z with | _ k l => simp at h
        · simp only [Sum.elim_inr] at h
          exact congrArg _ (congrArg _ (Sym2.map.injective Sum.inr_injective h))
      · intro z
        induction z with
        | _ i j =>
          rcases i with _ | i <;> rcases j with _ | j
          · exact ⟨Sum.inl (), rfl⟩
          · exact ⟨Sum.inr (Sum.inl j), rfl⟩
          · exact ⟨Sum.inr (Sum.inl i), by simp [Sym2.eq_swap]⟩
          · exact ⟨Sum.inr (Sum.inr s(i, j)), rfl⟩)

/-- a matrix with one more row and column -/
def bordered (c : ℝ) (x : κ → ℝ) (S : Matrix κ κ ℝ) : Matrix (Unit ⊕ κ) (Unit ⊕ κ) ℝ :=
  fromBlocks (Matrix.of fun _ _ => c) (Matrix.of fun _ j => x j) (Matrix.of fun i _ => x i) S

/-- the entries of a bordered matrix -/
noncomputable def borderVec (c : Unit → ℝ) (x : κ → ℝ) (w : Sym2 κ → ℝ) : Sym2 (Unit ⊕ κ) → ℝ :=
  Sum.elim c (Sum.elim x w) ∘ (sym2Border κ).symm

omit [Fintype κ] [DecidableEq κ] in
theorem symMat_borderVec (c : Unit → ℝ) (x : κ → ℝ) (w : Sym2 κ → ℝ) :
    symMat (borderVec c x w) = bordered (c ()) x (symMat w) := by
  have h : ∀ z, borderVec c x w (sym2Border κ z) = Sum.elim c (Sum.elim x w) z := by
    intro z; simp [borderVec]
  ext i j
  rcases i with i | i <;> rcases j with j | j
  · exact h (Sum.inl ())
  · exact h (Sum.inr (Sum.inl j))
  · have := h (Sum.inr (Sum.inl i))
    change borderVec c x w s(Sum.inr i, Sum.inl j) = x i
    rw [Sym2.eq_swap]
    exact this
  · exact h (Sum.inr (Sum.inr s(i, j)))

omit [DecidableEq κ] in
theorem lintegral_border (F : (Sym2 (Unit ⊕ κ) → ℝ) → ENNReal) (hF : Measurable F) :
    ∫⁻ v, F v = ∫⁻ c : Unit → ℝ, ∫⁻ x : κ → ℝ, ∫⁻ w : Sym2 κ → ℝ, F (borderVec c x w) := by
  have h1 := volume_measurePreserving_piCongrLeft (fun _ : Sym2 (Unit ⊕ κ) => ℝ) (sym2Border κ)
  have h2 := volume_measurePreserving_sumPiEquivProdPi_symm (fun _ : Unit ⊕ (κ ⊕ Sym2 κ) => ℝ)
  have h3 := volume_measurePreserving_sumPiEquivProdPi_symm (fun _ : κ ⊕ Sym2 κ => ℝ)
  have hm : Measurable fun v : Unit ⊕ (κ ⊕ Sym2 κ) → ℝ => F (v ∘ (sym2Border κ).symm) := by
    refine hF.comp ?_
    rw [measurable_pi_iff]
    intro z
    exact measurable_pi_apply _
  have e2 : ∀ p : (Unit → ℝ) × (κ ⊕ Sym2 κ → ℝ),
      (MeasurableEquiv.sumPiEquivProdPi fun _ : Unit ⊕ (κ ⊕ Sym2 κ) => ℝ).symm p = Sum.elim p.1 p.2 := by
    intro p; funext k; rcases k with k | k <;> rfl
  have e3 : ∀ p : (κ → ℝ) × (Sym2 κ → ℝ),
      (MeasurableEquiv.sumPiEquivProdPi fun _ : κ ⊕ Sym2 κ => ℝ).symm p = Sum.elim p.1 p.2 := by
    intro p; funext k; rcases k with k | k <;> rfl
  rw [← h1.lintegral_comp_emb (MeasurableEquiv.measurableEmbedding _)]
  simp only [piCongrLeft_eq]
  rw [← h2.lintegral_comp_emb (MeasurableEquiv.measurableEmbedding _)]
  have hm2 := hm.comp h2.measurable
  simp only [Function.comp_def, e2] at hm2 ⊢
  rw [Measure.volume_eq_prod, lintegral_prod _ hm2.aemeasurable]
  refine lintegral_congr fun c => ?_
  rw [← h3.lintegral_comp_emb (MeasurableEquiv.measurableEmbedding _)]
  have hm3 := (hm2.comp (measurable_prodMk_left (x := c))).comp h3.measurable
  simp only [Function.comp_def, e3] at hm3 ⊢
  rw [Measure.volume_eq_prod, lintegral_prod _ hm3.aemeasurable]
  rfl

omit [DecidableEq κ] in
theorem bordered_quadratic (c : ℝ) (hc : c ≠ 0) (x : κ → ℝ) (S : Matrix κ κ ℝ) (t : ℝ) (y : κ → ℝ) :
    (Sum.elim (fun _ => t) y) ⬝ᵥ bordered c x (S + Matrix.of fun i j => x i * x j / c) *ᵥ (Sum.elim (fun _ : Unit => t) y)
      = c * (t + (x ⬝ᵥ y) / c) ^ 2 + y ⬝ᵥ S *ᵥ y := by
  have e : (Matrix.of fun i j => x i * x j / c) *ᵥ y = fun i => x i * (x ⬝ᵥ y) / c := by
    funext i
    simp only [mulVec, dotProduct, of_apply]
    rw [Finset.mul_sum, Finset.sum_div]
    exact Finset.sum_congr rfl fun j _ => by ring
  have e2 : (y ⬝ᵥ fun i => x i * (x ⬝ᵥ y) / c) = (x ⬝ᵥ y) ^ 2 / c := by
    simp only [dotProduct]
    rw [sq, Finset.sum_mul, Finset.sum_div]
    exact Finset.sum_congr rfl fun j _ => by ring
  rw [bordered, fromBlocks_mulVec, Sum.elim_comp_inl, Sum.elim_comp_inr]
  simp only [dotProduct, Fintype.sum_sum_type, Sum.elim_inl, Sum.elim_inr, Finset.univ_unique, Finset.sum_singleton,
    Pi.add_apply]
  have e3 : ∑ i, y i * (((Matrix.of fun i (_ : Unit) => x i) *ᵥ fun _ => t) i + ((S + Matrix.of fun i j => x i * x j / c) *ᵥ y) i)
      = t * (x ⬝ᵥ y) + y ⬝ᵥ S *ᵥ y + (x ⬝ᵥ y) ^ 2 / c := by
    rw [add_mulVec, e, ← e2]
    simp only [dotProduct, Pi.add_apply, mul_add, Finset.sum_add_distrib]
    rw [Finset.mul_sum]
    simp only [mulVec, dotProduct, of_apply, Finset.univ_unique, Finset.sum_singleton]
    rw [← add_assoc]
    congr 2
    exact Finset.sum_congr rfl fun j _ => by ring
  rw [e3]
  simp only [mulVec, dotProduct, of_apply, Finset.univ_unique, Finset.sum_singleton]
  field_simp
  ring

theorem bordered_det (c : ℝ) (hc : c ≠ 0) (x : κ → ℝ) (S : Matrix κ κ ℝ) :
    (bordered c x (S + Matrix.of fun i j => x i * x j / c)).det = c * S.det := by
  have hd : (Matrix.of fun _ _ : Unit => c).det = c := by simp
  let : Invertible (Matrix.of fun _ _ : Unit => c) := invertibleOfIsUnitDet _ (by rw [hd]; exact isUnit_iff_ne_zero.2 hc)
  have hi : ⅟(Matrix.of fun _ _ : Unit => c) = Matrix.of fun _ _ => c⁻¹ := by
    apply invOf_eq_right_inv
    ext i j
    simp [mul_apply, hc]
  rw [bordered, det_fromBlocks₁₁, hd, hi]
  congr 2
  ext i j
  simp [mul_apply]
  ring

omit [DecidableEq κ] in
theorem bordered_posDef_iff (c : ℝ) (x : κ → ℝ) (S : Matrix κ κ ℝ) (hS : S.IsHermitian) :
    (bordered c x (S + Matrix.of fun i j => x i * x j / c)).PosDef ↔ 0 < c ∧ S.PosDef := by
  constructor
  · intro h
    have hc : 0 < c := by simpa [bordered] using h.diag_pos (i := Sum.inl ())
    refine ⟨hc, .of_dotProduct_mulVec_pos hS fun y hy => ?_⟩
    have := h.dotProduct_mulVec_pos (x := Sum.elim (fun _ => -((x ⬝ᵥ y) / c)) y) (by
      intro h0
      apply hy
      funext i
      exact congrFun h0 (Sum.inr i))
    rw [star_trivial, bordered_quadratic c hc.ne'] at this
    simpa using this
  · rintro ⟨hc, h⟩
    refine .of_dotProduct_mulVec_pos ?_ fun z hz => ?_
    · ext i j
      rcases i with i | i <;> rcases j with j | j <;> simp [bordered]
      have := congrFun (congrFun hS i) j
      simp only [conjTranspose_apply, star_trivial] at this
      rw [this, mul_comm]
    · have ez : z = Sum.elim (fun _ => z (Sum.inl ())) (z ∘ Sum.inr) := by
        funext i; rcases i with i | i <;> rfl
      rw [star_trivial, ez, bordered_quadratic c hc.ne']
      by_cases hy : z ∘ Sum.inr = 0
      · have h0 : z (Sum.inl ()) ≠ 0 := by
          intro h0
          apply hz
          funext i
          rcases i with i | i
          · exact h0
          · exact congrFun hy i
        rw [hy]
        simp only [dotProduct_zero, zero_div, add_zero, mulVec_zero]
        positivity
      · have := h.dotProduct_mulVec_pos hy
        rw [star_trivial] at this
        positivity

/-! ### The Gaussian and the gamma integral -/

theorem lintegral_gauss (M : Matrix κ κ ℝ) (hM : M.PosDef) (c : ℝ) (hc : 0 < c) (q : κ → ℝ) :
    ∫⁻ x : κ → ℝ, ENNReal.ofReal (Real.exp (-(2 * (q ⬝ᵥ x) + x ⬝ᵥ M *ᵥ x / c)))
      = ENNReal.ofReal ((Real.pi * c) ^ ((Fintype.card κ : ℝ) / 2) * M.det ^ (-(1 / 2) : ℝ) * Real.exp (c * (q ⬝ᵥ M⁻¹ *ᵥ q))) := by
  set L : Matrix κ κ ℝ := (2 / c) • M with hL
  have hLp : L.PosDef := hM.smul (by positivity)
  set mu : κ → ℝ := -c • M⁻¹ *ᵥ q with hmu
  have hdet := hM.det_pos
  have hMM : M *ᵥ M⁻¹ *ᵥ q = q := by
    rw [mulVec_mulVec, mul_nonsing_inv _ (isUnit_iff_ne_zero.2 hdet.ne'), one_mulVec]
  have hsym : ∀ a b : κ → ℝ, a ⬝ᵥ M *ᵥ b = b ⬝ᵥ M *ᵥ a := by
    intro a b
    rw [dotProduct_mulVec, ← mulVec_transpose, dotProduct_comm]
    have : Mᵀ = M := hM.isHermitian
    rw [this]
  have hMmu : M *ᵥ mu = -c • q := by rw [hmu, mulVec_smul, hMM]
  have hquad : ∀ x : κ → ℝ, -1 / 2 * ((x - mu) ⬝ᵥ L *ᵥ (x - mu))
      = -(2 * (q ⬝ᵥ x) + x ⬝ᵥ M *ᵥ x / c) - c * (q ⬝ᵥ M⁻¹ *ᵥ q) := by
    intro x
    rw [hL, smul_mulVec, dotProduct_smul, mulVec_sub, sub_dotProduct, dotProduct_sub, dotProduct_sub, hsym mu x, hMmu,
      dotProduct_smul, dotProduct_smul, dotProduct_comm x q, dotProduct_comm mu q, hmu, dotProduct_smul]
    simp only [smul_eq_mul]
    field_simp
    ring
  have hLd : L.det = (2 / c) ^ (Fintype.card κ) * M.det := by rw [hL, det_smul]
  have hN := lintegral_gaussianPdf mu hLp
  have e : ∀ x : κ → ℝ, ENNReal.ofReal (Real.exp (-(2 * (q ⬝ᵥ x) + x ⬝ᵥ M *ᵥ x / c)))
      = ENNReal.ofReal ((Real.pi * c) ^ ((Fintype.card κ : ℝ) / 2) * M.det ^ (-(1 / 2) : ℝ) * Real.exp (c * (q ⬝ᵥ M⁻¹ *ᵥ q)))
        * ENNReal.ofReal (gaussianPdf mu L x) := by
    intro x
    rw [← ENNReal.ofReal_mul (by positivity), gaussianPdf, hquad, hLd, Real.exp_sub]
    congr 1
    have h2 : (0 : ℝ) < 2 / c := by positivity
    rw [Real.mul_rpow (by positivity) hdet.le, ← Real.rpow_natCast (2 / c), ← Real.rpow_mul h2.le, Real.rpow_neg hdet.le]
    have h3 : (2 * Real.pi) ^ (-(Fintype.card κ : ℝ) / 2) * (2 / c) ^ ((Fintype.card κ : ℝ) * (1 / 2))
        * (Real.pi * c) ^ ((Fintype.card κ : ℝ) / 2) = 1 := by
      rw [show -(Fintype.card κ : ℝ) / 2 = -((Fintype.card κ : ℝ) / 2) by ring,
        show (Fintype.card κ : ℝ) * (1 / 2) = (Fintype.card κ : ℝ) / 2 by ring, Real.rpow_neg (by positivity), mul_assoc,
        ← Real.mul_rpow h2.le (by positivity), show 2 / c * (Real.pi * c) = 2 * Real.pi by field_simp]
      exact inv_mul_cancel₀ (by positivity)
    have h4 : (0 : ℝ) < M.det ^ (1 / 2 : ℝ) := by positivity
    have h5 := Real.exp_pos (c * (q ⬝ᵥ M⁻¹ *ᵥ q))
    generalize Real.exp (c * (q ⬝ᵥ M⁻¹ *ᵥ q)) = E at *
    generalize Real.exp (-(2 * (q ⬝ᵥ x) + x ⬝ᵥ M *ᵥ x / c)) = E' at *
    generalize M.det ^ (1 / 2 : ℝ) = D at *
    generalize (2 * Real.pi) ^ (-(Fintype.card κ : ℝ) / 2) = A at *
    generalize (2 / c) ^ ((Fintype.card κ : ℝ) * (1 / 2)) = B at *
    generalize (Real.pi * c) ^ ((Fintype.card κ : ℝ) / 2) = G at *
    have : G * D⁻¹ * E * (A * (B * D) * (E' / E)) = (A * B * G) * E' := by
      field_simp
    rw [this, h3, one_mul]
  simp only [e]
  rw [lintegral_const_mul' _ _ ENNReal.ofReal_ne_top, hN, mul_one]

theorem lintegral_gammaKernel (a r : ℝ) (ha : 0 < a) (hr : 0 < r) :
    ∫⁻ c in Set.Ioi (0 : ℝ), ENNReal.ofReal (c ^ (a - 1) * Real.exp (-(r * c)))
      = ENNReal.ofReal (Real.Gamma a * r ^ (-a)) := by
  have h := Real.integral_rpow_mul_exp_neg_mul_Ioi ha hr
  have hG := Real.Gamma_pos_of_pos ha
  have hi : IntegrableOn (fun c : ℝ => c ^ (a - 1) * Real.exp (-(r * c))) (Set.Ioi 0) := by
    by_contra hn
    rw [integral_undef hn] at h
    have : 0 < (1 / r) ^ a * Real.Gamma a := by positivity
    exact this.ne h
  rw [← ofReal_integral_eq_lintegral_ofReal hi, h]
  · congr 1
    rw [one_div, Real.inv_rpow hr.le, Real.rpow_neg hr.le, mul_comm]
  · refine ae_restrict_of_forall_mem measurableSet_Ioi fun c hc => ?_
    exact mul_nonneg (Real.rpow_nonneg (le_of_lt hc) _) (Real.exp_pos _).le

/-! ### The induction step -/

/-- the entries of `x xᵀ / c` -/
noncomputable def outerVec (c : ℝ) (x : κ → ℝ) : Sym2 κ → ℝ :=
  Sym2.lift ⟨fun i j => x i * x j / c, fun i j => by dsimp only; rw [mul_comm]⟩

omit [Fintype κ] [DecidableEq κ] in
theorem symMat_add_outer (c : ℝ) (x : κ → ℝ) (w : Sym2 κ → ℝ) :
    symMat (w + outerVec c x) = symMat w + Matrix.of fun i j => x i * x j / c := by
  ext i j
  simp [symMat, outerVec]

omit [DecidableEq κ] in
theorem bordered_inner (p : ℝ) (q : κ → ℝ) (M : Matrix κ κ ℝ) (c : ℝ) (x : κ → ℝ) (S : Matrix κ κ ℝ) :
    ∑ i, ∑ j, bordered p q M i j * bordered c x (S + Matrix.of fun i j => x i * x j / c) i j
      = p * c + (2 * (q ⬝ᵥ x) + x ⬝ᵥ M *ᵥ x / c) + ∑ i, ∑ j, M i j * S i j := by
  simp only [Fintype.sum_sum_type, Finset.univ_unique, Finset.sum_singleton, bordered, fromBlocks_apply₁₁, fromBlocks_apply₁₂,
    fromBlocks_apply₂₁, fromBlocks_apply₂₂, of_apply, Finset.sum_add_distrib, Matrix.add_apply, mul_add]
  have e : x ⬝ᵥ M *ᵥ x / c = ∑ i, ∑ j, M i j * (x i * x j / c) := by
    simp only [dotProduct, mulVec, Finset.mul_sum, Finset.sum_div]
    exact Finset.sum_congr rfl fun i _ => Finset.sum_congr rfl fun j _ => by ring
  rw [e, dotProduct]
  ring

theorem multiGamma_succ (a : ℝ) (d : ℕ) :
    multiGamma a (d + 1) = Real.pi ^ ((d : ℝ) / 2) * Real.Gamma a * multiGamma (a - 1 / 2) d := by
  unfold multiGamma
  rw [Finset.prod_range_succ', mul_comm (Real.pi ^ ((d : ℝ) / 2)), mul_assoc, ← mul_assoc (Real.pi ^ ((d : ℝ) / 2)),
    ← Real.rpow_add Real.pi_pos]
  have e1 : (d : ℝ) / 2 + (d : ℝ) * (d - 1) / 4 = ((d + 1 : ℕ) : ℝ) * ((d + 1 : ℕ) - 1) / 4 := by
    push_cast; ring
  have e2 : ∀ k : ℕ, Real.Gamma (a - 0.5 * ((k + 1 : ℕ) : ℝ)) = Real.Gamma (a - 1 / 2 - 0.5 * (k : ℝ)) := by
    intro k
    congr 1
    push_cast
    norm_num
    ring
  rw [e1]
  simp only [e2]
  norm_num
  ring

theorem multiGamma_pos (a : ℝ) (d : ℕ) (h : ((d : ℝ) - 1) / 2 < a) : 0 < multiGamma a d := by
  unfold multiGamma
  refine mul_pos (Real.rpow_pos_of_pos Real.pi_pos _) (Finset.prod_pos fun j hj => Real.Gamma_pos_of_pos ?_)
  have : (j : ℝ) + 1 ≤ d := by exact_mod_cast Finset.mem_range.1 hj
  norm_num
  linarith

theorem wishartInt_border (h : WishartInt κ) : WishartInt (Unit ⊕ κ) := by
  intro P hP a ha
  set d : ℕ := Fintype.card κ with hd
  have hcard : Fintype.card (Unit ⊕ κ) = d + 1 := by simp [hd, add_comm]
  rw [hcard] at ha ⊢
  have ha' : (d : ℝ) / 2 < a := by push_cast at ha; linarith
  have ha0 : 0 < a := lt_of_le_of_lt (by positivity) ha'
  obtain ⟨p, q, M, rfl⟩ : ∃ p q M, P = bordered p q M := by
    refine ⟨P (Sum.inl ()) (Sum.inl ()), fun j => P (Sum.inl ()) (Sum.inr j), P.submatrix Sum.inr Sum.inr, ?_⟩
    ext i j
    rcases i with i | i <;> rcases j with j | j
    · rfl
    · rfl
    · have := congrFun (congrFun hP.isHermitian (Sum.inr i)) (Sum.inl j)
      simp only [conjTranspose_apply, star_trivial] at this
      exact this.symm
    · rfl
  have hM : M.PosDef := by
    have := hP.submatrix (e := (Sum.inr : κ → Unit ⊕ κ)) Sum.inr_injective
    exact this
  set r : ℝ := p - q ⬝ᵥ M⁻¹ *ᵥ q with hr
  have hdetP : (bordered p q M).det = M.det * r := by
    let : Invertible M := invertibleOfIsUnitDet _ (isUnit_iff_ne_zero.2 hM.det_pos.ne')
    rw [bordered, det_fromBlocks₂₂, invOf_eq_nonsing_inv]
    congr 1
    rw [hr, det_unique, Matrix.sub_apply, Matrix.mul_assoc, mul_apply]
    rfl
  have hr0 : 0 < r := by
    have h1 := hP.det_pos
    rw [hdetP] at h1
    exact pos_of_mul_pos_right h1 hM.det_pos.le
  have hMd := hM.det_pos
  have hIH := h M hM (a - 1 / 2) (by linarith)
  have hmG : 0 < multiGamma (a - 1 / 2) d := multiGamma_pos _ _ (by linarith)
  rw [← hd] at hIH
  set K : ℝ := multiGamma (a - 1 / 2) d * M.det ^ (-(a - 1 / 2)) with hK
  have hK0 : 0 < K := by positivity
  rw [← lintegral_indicator measurableSet_posDefCone, lintegral_border _
    (Measurable.indicator (measurable_wishartKernel _ _) measurableSet_posDefCone)]
  -- the lower right block
  have e1 : ∀ (c : Unit → ℝ) (x : κ → ℝ), ∫⁻ w : Sym2 κ → ℝ, (posDefCone (Unit ⊕ κ)).indicator
        (fun v => ENNReal.ofReal (wishartKernel a (bordered p q M) (symMat v))) (borderVec c x w)
      = if 0 < c () then ENNReal.ofReal (c () ^ (a - ((d : ℝ) + 2) / 2) * Real.exp (-(p * c ())) * K)
          * ENNReal.ofReal (Real.exp (-(2 * (q ⬝ᵥ x) + x ⬝ᵥ M *ᵥ x / c ()))) else 0 := by
    intro c x
    rw [← lintegral_add_right_eq_self _ (outerVec (c ()) x)]
    by_cases hc : 0 < c ()
    · rw [if_pos hc, ENNReal.ofReal_mul (by positivity), ← hIH, mul_right_comm, ← ENNReal.ofReal_mul (by positivity),
        ← lintegral_indicator measurableSet_posDefCone, ← lintegral_const_mul' _ _ ENNReal.ofReal_ne_top]
      refine lintegral_congr fun w => ?_
      have hiff : borderVec c x (w + outerVec (c ()) x) ∈ posDefCone (Unit ⊕ κ) ↔ w ∈ posDefCone κ := by
        unfold posDefCone
        rw [Set.mem_ofPred_eq, Set.mem_ofPred_eq, symMat_borderVec, symMat_add_outer,
          bordered_posDef_iff _ _ _ (symMat_isHermitian w)]
        simp [hc]
      by_cases hw : w ∈ posDefCone κ
      · have hwd : 0 < (symMat w).det := Matrix.PosDef.det_pos hw
        rw [Set.indicator_of_mem hw, Set.indicator_of_mem (hiff.2 hw), ← ENNReal.ofReal_mul (by positivity)]
        congr 1
        unfold wishartKernel
        rw [symMat_borderVec, symMat_add_outer, bordered_det _ hc.ne', bordered_inner, hcard, ← hd,
          Real.mul_rpow hc.le hwd.le,
          show a - (((d + 1 : ℕ) : ℝ) + 1) / 2 = a - ((d : ℝ) + 2) / 2 by push_cast; ring,
          show a - 1 / 2 - ((d : ℝ) + 1) / 2 = a - ((d : ℝ) + 2) / 2 by ring,
          neg_add, neg_add, Real.exp_add, Real.exp_add]
        ring
      · rw [Set.indicator_of_notMem hw, Set.indicator_of_notMem fun h => hw (hiff.1 h), mul_zero]
    · rw [if_neg hc]
      refine (lintegral_congr fun w => Set.indicator_of_notMem ?_ _).trans lintegral_zero
      unfold posDefCone
      rw [Set.mem_ofPred_eq, symMat_borderVec, symMat_add_outer, bordered_posDef_iff _ _ _ (symMat_isHermitian w)]
      exact fun h => hc h.1
  -- the border
  have e2 : ∀ c : Unit → ℝ, ∫⁻ (x : κ → ℝ), ∫⁻ w : Sym2 κ → ℝ, (posDefCone (Unit ⊕ κ)).indicator
        (fun v => ENNReal.ofReal (wishartKernel a (bordered p q M) (symMat v))) (borderVec c x w)
      = (Set.Ioi (0 : ℝ)).indicator (fun c => ENNReal.ofReal (Real.pi ^ ((d : ℝ) / 2) * M.det ^ (-(1 / 2) : ℝ) * K)
          * ENNReal.ofReal (c ^ (a - 1) * Real.exp (-(r * c)))) (c ()) := by
    intro c
    simp only [e1]
    by_cases hc : 0 < c ()
    · simp only [hc, if_true]
      rw [Set.indicator_of_mem (show c () ∈ Set.Ioi (0 : ℝ) from hc), lintegral_const_mul' _ _ ENNReal.ofReal_ne_top,
        lintegral_gauss M hM _ hc, ← ENNReal.ofReal_mul (by positivity), ← ENNReal.ofReal_mul (by positivity), ← hd]
      congr 1
      rw [Real.mul_rpow Real.pi_pos.le hc.le,
        show a - 1 = a - ((d : ℝ) + 2) / 2 + (d : ℝ) / 2 by ring, Real.rpow_add hc,
        show -(r * c ()) = -(p * c ()) + c () * (q ⬝ᵥ M⁻¹ *ᵥ q) by rw [hr]; ring, Real.exp_add]
      ring
    · simp only [hc, if_false]
      rw [Set.indicator_of_notMem (show c () ∉ Set.Ioi (0 : ℝ) from hc), lintegral_zero]
  simp only [e2]
  -- the corner
  have hmp := volume_preserving_funUnique Unit ℝ
  have mG : Measurable fun c : ℝ => (Set.Ioi (0 : ℝ)).indicator (fun c =>
      ENNReal.ofReal (Real.pi ^ ((d : ℝ) / 2) * M.det ^ (-(1 / 2) : ℝ) * K)
          * ENNReal.ofReal (c ^ (a - 1) * Real.exp (-(r * c)))) c :=
    Measurable.indicator (by fun_prop) measurableSet_Ioi
  have e3 := hmp.lintegral_comp mG
  refine e3.trans ?_
  rw [lintegral_indicator measurableSet_Ioi, lintegral_const_mul' _ _ ENNReal.ofReal_ne_top, lintegral_gammaKernel a r ha0 hr0,
    ← ENNReal.ofReal_mul (by positivity)]
  congr 1
  rw [hdetP, multiGamma_succ, Real.mul_rpow hMd.le hr0.le, hK,
    show -a = -(1 / 2) + -(a - 1 / 2) by ring, Real.rpow_add hMd]
  ring

/-- the integral for matrices of any size -/
theorem wishartInt (ι : Type) [Fintype ι] [DecidableEq ι] : WishartInt ι := by
  have h : ∀ n, WishartInt (Fin n) := by
    intro n
    induction n with
    | zero => exact wishartInt_empty
    | succ n ih =>
      refine wishartInt_congr (?_ : Unit ⊕ Fin n ≃ Fin (n + 1)) (wishartInt_border ih)
      exact Fintype.equivFinOfCardEq (by simp [add_comm])
  exact wishartInt_congr (Fintype.equivFin ι).symm (h _)

end

end Verif
