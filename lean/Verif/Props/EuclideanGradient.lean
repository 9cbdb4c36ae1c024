import Verif.Model.EuclideanGradient
import Verif.Lemmas.Trigamma
import Verif.Props.NormalModel
import Verif.Props.GaussianMoments
import Verif.Props.PhiBias

/-!
# C57: `get_gradient` is the gradient of the lower bound with respect to the natural parameters
-/

namespace Verif.Spec

/-- `grad g` is the gradient of `phi ↦ ⟨g, mom phi⟩` at `phi`, as far as directions in `D` and coefficients `g` in `C` are
concerned: the moments have a derivative `dm` in each direction `d`, and `⟨g, dm⟩ = ⟨grad g, d⟩`. -/
def IsChainRule {I : Type*} [Fintype I] (mom : (I → ℝ) → I → ℝ) (phi : I → ℝ) (grad : (I → ℝ) → I → ℝ)
    (C D : Set (I → ℝ)) : Prop :=
  ∀ d ∈ D, ∃ dm : I → ℝ, (∀ i, HasDerivAt (fun t : ℝ => mom (phi + t • d) i) (dm i) 0) ∧
    ∀ g ∈ C, g ⬝ᵥ dm = grad g ⬝ᵥ d

/-- The parameters whose matrix part is symmetric. -/
def SymmetricParts (ι : Type*) : Set (GIx ι → ℝ) := {d | (g1 d).transpose = g1 d}

end Verif.Spec

namespace Verif
open Spec

/-- The gradient of `⟨g, moments⟩` in the usual sense follows. -/
theorem IsChainRule.hasDerivAt {I : Type*} [Fintype I] {mom : (I → ℝ) → I → ℝ} {phi : I → ℝ} {grad : (I → ℝ) → I → ℝ}
    {C D : Set (I → ℝ)} (h : IsChainRule mom phi grad C D) {g d : I → ℝ} (hg : g ∈ C) (hd : d ∈ D) :
    HasDerivAt (fun t : ℝ => g ⬝ᵥ mom (phi + t • d)) (grad g ⬝ᵥ d) 0 := by
  obtain ⟨dm, h1, h2⟩ := h d hd
  rw [← h2 g hg]
  exact hasDerivAt_sum' fun i => (h1 i).const_mul (g i)

/-! ### the distributions -/

/-- **C57** for Gamma -/
theorem C57_gamma (phi : Fin 2 → ℝ) (h0 : phi 0 < 0) (h1 : 0 < phi 1) :
    IsChainRule gammaMoments phi (fun g => gammaGradient trigamma g phi) Set.univ Set.univ := by
  intro d _
  have hne : phi 0 ≠ 0 := h0.ne
  refine ⟨![d 0 * phi 1 / phi 0 ^ 2 - d 1 / phi 0, trigamma (phi 1) * d 1 - d 0 / phi 0], ?_, ?_⟩
  · intro i
    fin_cases i
    · have a := (hasDerivAt_line (phi 1) (d 1)).div (hasDerivAt_line (phi 0) (d 0)).neg
        (by simpa using hne)
      refine hasDerivAt_of_eq a (fun t => rfl) ?_
      simp only [Pi.neg_apply, zero_mul, add_zero, Fin.zero_eta, Fin.isValue, Matrix.cons_val_zero]
      field_simp
      ring
    · have a := hasDerivAt_along (d 1) (hasDerivAt_digamma (phi 1) h1)
      have b := ((hasDerivAt_line (phi 0) (d 0)).neg).log (by simpa using hne)
      refine hasDerivAt_of_eq (a.sub b) (fun t => rfl) ?_
      simp only [Pi.neg_apply, zero_mul, add_zero, Fin.mk_one, Fin.isValue, Matrix.cons_val_one, Matrix.cons_val_zero]
      field_simp
  · intro g _
    simp only [dotProduct, Fin.sum_univ_two, gammaGradient, Matrix.cons_val_zero, Matrix.cons_val_one]
    field_simp
    ring

/-- **C57** for Multinomial and Categorical, for a number of trials without plates -/
theorem C57_multinomial {ι : Type*} [Fintype ι] [Nonempty ι] (N : ℕ) (hN : N ≠ 0) (phi : ι → ℝ) :
    IsChainRule (multinomialMoments N) phi (fun g => multinomialGradient N g (multinomialMoments N phi))
      Set.univ Set.univ := by
  intro d _
  have hs := sum_exp_pos phi
  have hN' : (N : ℝ) ≠ 0 := by exact_mod_cast hN
  have hu : ∀ p : ι → ℝ, multinomialMoments N p = fun i => (N : ℝ) * (Real.exp (p i) / ∑ j, Real.exp (p j)) := by
    intro p
    funext i
    simp only [multinomialMoments, expNormalized_eq]
  refine ⟨fun i => multinomialMoments N phi i * (d i - (∑ j, multinomialMoments N phi j * d j) / N), ?_, ?_⟩
  · intro i
    have a := hasDerivAt_along (d i) (Real.hasDerivAt_exp (phi i))
    have b := hasDerivAt_sum' fun j => hasDerivAt_along (d j) (Real.hasDerivAt_exp (phi j))
    have c := (a.div b (by simpa using hs.ne')).const_mul (N : ℝ)
    refine hasDerivAt_of_eq c (fun t => by rw [hu]; rfl) ?_
    simp only [hu, zero_mul, add_zero]
    have e : ∑ j, (N : ℝ) * (Real.exp (phi j) / ∑ k, Real.exp (phi k)) * d j
        = N * (∑ j, Real.exp (phi j) * d j) / ∑ k, Real.exp (phi k) := by
      rw [Finset.mul_sum, Finset.sum_div]
      exact Finset.sum_congr rfl fun j _ => by ring
    rw [e]
    have := hs.ne'
    field_simp
  · intro g _
    simp only [dotProduct, multinomialGradient]
    have e1 : ∀ i, g i * (multinomialMoments N phi i * (d i - (∑ j, multinomialMoments N phi j * d j) / N))
        = multinomialMoments N phi i * g i * d i
          - g i * multinomialMoments N phi i * ((∑ j, multinomialMoments N phi j * d j) / N) := fun i => by ring
    have e2 : ∀ i, multinomialMoments N phi i * (g i - (∑ j, g j * multinomialMoments N phi j) / N) * d i
        = multinomialMoments N phi i * g i * d i
          - multinomialMoments N phi i * d i * ((∑ j, g j * multinomialMoments N phi j) / N) := fun i => by ring
    simp only [e1, e2, Finset.sum_sub_distrib, ← Finset.sum_mul]
    ring

/-- **C57** for scalar GaussianARD -/
theorem C57_gaussianARD_scalar (phi : Fin 2 → ℝ) (h : phi 1 < 0) :
    IsChainRule ardMoments0 phi (fun g => ard0Gradient g (ardMoments0 phi)) Set.univ Set.univ := by
  intro d _
  have hne : phi 1 ≠ 0 := h.ne
  have a : HasDerivAt (fun t : ℝ => -(phi 0 + t * d 0) / (2 * (phi 1 + t * d 1)))
      (-d 0 / (2 * phi 1) + phi 0 * d 1 / (2 * phi 1 ^ 2)) 0 := by
    have := (hasDerivAt_line (phi 0) (d 0)).neg.div ((hasDerivAt_line (phi 1) (d 1)).const_mul 2) (by simpa using hne)
    refine hasDerivAt_of_eq this (fun t => rfl) ?_
    simp only [Pi.neg_apply, zero_mul, add_zero]
    field_simp
    ring
  have b : HasDerivAt (fun t : ℝ => 1 / (2 * (phi 1 + t * d 1))) (-(d 1 / (2 * phi 1 ^ 2))) 0 := by
    have := (hasDerivAt_const (0 : ℝ) (1 : ℝ)).div ((hasDerivAt_line (phi 1) (d 1)).const_mul 2) (by simpa using hne)
    refine hasDerivAt_of_eq this (fun t => rfl) ?_
    simp only [zero_mul, add_zero]
    field_simp
    ring
  refine ⟨![-d 0 / (2 * phi 1) + phi 0 * d 1 / (2 * phi 1 ^ 2),
    2 * (-phi 0 / (2 * phi 1)) * (-d 0 / (2 * phi 1) + phi 0 * d 1 / (2 * phi 1 ^ 2)) + d 1 / (2 * phi 1 ^ 2)], ?_, ?_⟩
  · intro i
    fin_cases i
    · exact hasDerivAt_of_eq a (fun t => rfl) rfl
    · refine hasDerivAt_of_eq ((a.pow 2).sub b) (fun t => rfl) ?_
      simp
  · intro g _
    simp only [dotProduct, Fin.sum_univ_two, ard0Gradient, ardMoments0, Matrix.cons_val_zero, Matrix.cons_val_one]
    field_simp
    ring

section
variable {ι : Type*} [Fintype ι] [DecidableEq ι]

omit [Fintype ι] [DecidableEq ι] in
theorem vecMulVec_transpose (x y : ι → ℝ) : (Matrix.vecMulVec x y).transpose = Matrix.vecMulVec y x := by
  ext i j
  simp [Matrix.vecMulVec_apply, mul_comm]

omit [DecidableEq ι] in
theorem frob_comm (A B : Matrix ι ι ℝ) : frob A B = frob B A := by
  simp only [frob, mul_comm]

omit [DecidableEq ι] in
theorem frob_transpose (A B : Matrix ι ι ℝ) : frob A.transpose B = frob A B.transpose := by
  simp only [frob, Matrix.transpose_apply]
  exact Finset.sum_comm

omit [DecidableEq ι] in
theorem frob_vecMulVec (x y : ι → ℝ) (B : Matrix ι ι ℝ) : frob (Matrix.vecMulVec x y) B = x ⬝ᵥ B.mulVec y := by
  simp only [frob, dotProduct, Matrix.mulVec, Matrix.vecMulVec_apply, Finset.mul_sum]
  exact Finset.sum_congr rfl fun i _ => Finset.sum_congr rfl fun j _ => by ring

omit [DecidableEq ι] in
theorem frob_eq_trace (A B : Matrix ι ι ℝ) : frob A B = (A.transpose * B).trace := by
  simp only [Matrix.trace, frob, Matrix.diag_apply, Matrix.mul_apply, Matrix.transpose_apply]
  exact Finset.sum_comm

/-- The derivatives of the mean and the covariance of a Gaussian along a line of parameters. -/
theorem hasDerivAt_gaussianMoments (phi d : GIx ι → ℝ) (h : ((-2 : ℝ) • g1 phi).PosDef) (i : GIx ι) :
    HasDerivAt (fun t : ℝ => gaussianMoments (phi + t • d) i)
      (let S := ((-2 : ℝ) • g1 phi)⁻¹
       let mu := S.mulVec (g0 phi)
       let dS := (2 : ℝ) • (S * g1 d * S)
       let dmu := dS.mulVec (g0 phi) + S.mulVec (g0 d)
       mkG dmu (dS + (Matrix.vecMulVec dmu mu + Matrix.vecMulVec mu dmu)) i) 0 := by
  have hu : IsUnit ((-2 : ℝ) • g1 phi).det := h.det_pos.ne'.isUnit
  set S := ((-2 : ℝ) • g1 phi)⁻¹ with hS
  have hl : ∀ t : ℝ, (-2 : ℝ) • g1 (phi + t • d) = (-2 : ℝ) • g1 phi + t • ((-2 : ℝ) • g1 d) := fun t => line_smul _ _ _ _
  have hcov : ∀ i j, HasDerivAt (fun t : ℝ => ((-2 : ℝ) • g1 (phi + t • d))⁻¹ i j) (((2 : ℝ) • (S * g1 d * S)) i j) 0 := by
    intro i j
    refine hasDerivAt_of_eq (hasDerivAt_inv_entry ((-2 : ℝ) • g1 phi) ((-2 : ℝ) • g1 d) hu i j) (fun t => by rw [hl]) ?_
    rw [← hS, Matrix.mul_smul, Matrix.smul_mul]
    simp
  have hmu : ∀ i, HasDerivAt (fun t : ℝ => ((-2 : ℝ) • g1 (phi + t • d))⁻¹.mulVec (g0 (phi + t • d)) i)
      ((((2 : ℝ) • (S * g1 d * S)).mulVec (g0 phi) + S.mulVec (g0 d)) i) 0 := by
    intro i
    have := hasDerivAt_sum' fun j => (hcov i j).mul (hasDerivAt_line (g0 phi j) (g0 d j))
    refine hasDerivAt_of_eq this (fun t => rfl) ?_
    simp only [zero_smul, add_zero, zero_mul, ← hS, Finset.sum_add_distrib]
    rfl
  have h0 : ((-2 : ℝ) • g1 (phi + (0 : ℝ) • d))⁻¹.mulVec (g0 (phi + (0 : ℝ) • d)) = S.mulVec (g0 phi) := by
    rw [zero_smul, add_zero]
  rcases i with i | ⟨i, j⟩
  · exact hmu i
  · have := (hcov i j).add ((hmu i).mul (hmu j))
    refine hasDerivAt_of_eq this (fun t => rfl) ?_
    rw [h0]
    rfl

omit [Fintype ι] [DecidableEq ι] in
theorem mkG_eta' (g : GIx ι → ℝ) : g = mkG (g0 g) (g1 g) := by
  funext i
  rcases i with i | ⟨i, j⟩ <;> rfl

omit [DecidableEq ι] in
theorem gaussianGradient_algebra (S B D : Matrix ι ι ℝ) (a b e : ι → ℝ) (hS : S.transpose = S) (hB : B.transpose = B)
    (hD : D.transpose = D) {g d : GIx ι → ℝ} (hg : g = mkG b B) (hd : d = mkG e D) :
    g ⬝ᵥ mkG (((2 : ℝ) • (S * D * S)).mulVec a + S.mulVec e) ((2 : ℝ) • (S * D * S)
        + (Matrix.vecMulVec (((2 : ℝ) • (S * D * S)).mulVec a + S.mulVec e) (S.mulVec a)
          + Matrix.vecMulVec (S.mulVec a) (((2 : ℝ) • (S * D * S)).mulVec a + S.mulVec e)))
      = gaussianGradient g (mkG (S.mulVec a) (S + Matrix.vecMulVec (S.mulVec a) (S.mulVec a))) ⬝ᵥ d := by
  have sym : ∀ (M : Matrix ι ι ℝ) (_ : M.transpose = M) (p q : ι → ℝ), p ⬝ᵥ M.mulVec q = M.mulVec p ⬝ᵥ q := by
    intro M hM p q
    rw [Matrix.dotProduct_mulVec, ← Matrix.mulVec_transpose, hM]
  set x := S.mulVec a with hx
  have edmu : ((2 : ℝ) • (S * D * S)).mulVec a + S.mulVec e = (2 : ℝ) • S.mulVec (D.mulVec x) + S.mulVec e := by
    rw [Matrix.smul_mulVec, ← Matrix.mulVec_mulVec, ← Matrix.mulVec_mulVec]
  rw [edmu]
  have hg0 : g0 (mkG b B) = b := rfl
  have hg1 : g1 (mkG b B) = B := rfl
  have hd0 : g0 (mkG e D) = e := rfl
  have hd1 : g1 (mkG e D) = D := rfl
  have hm0 : ∀ (p : ι → ℝ) (M : Matrix ι ι ℝ), g0 (mkG p M) = p := fun _ _ => rfl
  have hm1 : ∀ (p : ι → ℝ) (M : Matrix ι ι ℝ), g1 (mkG p M) = M := fun _ _ => rfl
  subst hg hd
  rw [mkG_dotProduct, hm0, hm1]
  unfold gaussianGradient
  simp only [hm0, hm1, add_sub_cancel_right]
  rw [mkG_dotProduct, hm0, hm1]
  have exx : (S + Matrix.vecMulVec x x) * (B * (S + Matrix.vecMulVec x x))
      = S * B * S + Matrix.vecMulVec (S.mulVec (B.mulVec x)) x + Matrix.vecMulVec x (S.mulVec (B.mulVec x))
        + (B.mulVec x ⬝ᵥ x) • Matrix.vecMulVec x x := by
    rw [Matrix.mul_add B, Matrix.mul_vecMulVec, Matrix.add_mul, Matrix.mul_add, Matrix.mul_add, ← Matrix.mul_assoc,
      Matrix.mul_vecMulVec, ← Matrix.mul_assoc, Matrix.vecMulVec_mul, Matrix.vecMulVec_mul, Matrix.vecMulVec_mul_vecMulVec,
      ← Matrix.mulVec_transpose, ← Matrix.mulVec_transpose, hB, hS, dotProduct_comm x]
    ext i j
    simp [Matrix.vecMulVec_apply]
    ring
  rw [exx]
  have fadd : ∀ A C E : Matrix ι ι ℝ, frob A (C + E) = frob A C + frob A E := fun A C E => by
    rw [frob_comm, frob_add, frob_comm C, frob_comm E]
  have fsub : ∀ A C E : Matrix ι ι ℝ, frob (A - C) E = frob A E - frob C E := fun A C E => by
    simp [frob, sub_mul, Finset.sum_sub_distrib]
  have fsmul : ∀ (c : ℝ) (A C : Matrix ι ι ℝ), frob A (c • C) = c * frob A C := fun c A C => by
    rw [frob_comm, frob_smul, frob_comm]
  rw [fadd, fadd, fsmul, vecMulVec_transpose, fsub, frob_add, frob_add, frob_smul, frob_smul, frob_add, frob_add, frob_add,
    frob_smul, frob_comm B (Matrix.vecMulVec _ _), frob_comm B (Matrix.vecMulVec _ _)]
  simp only [frob_vecMulVec]
  have etr : frob B (S * D * S) = frob (S * B * S) D := by
    rw [frob_eq_trace, frob_eq_trace, Matrix.transpose_mul, Matrix.transpose_mul, hS, hB, ← Matrix.mul_assoc,
      Matrix.trace_mul_comm, ← Matrix.mul_assoc, ← Matrix.mul_assoc, ← Matrix.mul_assoc]
  rw [etr]
  simp only [Matrix.mulVec_add, Matrix.mulVec_smul, dotProduct_add, add_dotProduct, dotProduct_smul, smul_dotProduct,
    smul_eq_mul]
  have h1 : ∀ v, b ⬝ᵥ S.mulVec v = S.mulVec b ⬝ᵥ v := sym S hS b
  have h2 : ∀ v, S.mulVec v ⬝ᵥ B.mulVec x = S.mulVec (B.mulVec x) ⬝ᵥ v := fun v => by
    rw [dotProduct_comm, sym S hS]
  have h3 : ∀ v, x ⬝ᵥ B.mulVec (S.mulVec v) = S.mulVec (B.mulVec x) ⬝ᵥ v := fun v => by rw [sym B hB, sym S hS]
  have h4 : ∀ v, x ⬝ᵥ D.mulVec v = v ⬝ᵥ D.mulVec x := fun v => by rw [sym D hD, dotProduct_comm]
  rw [h1, h1, h2, h2, h3, h3, h4 (S.mulVec b), h4 (S.mulVec (B.mulVec x))]
  ring

/-- **C57** for Gaussian and for GaussianARD with one variable axis, for parameters with symmetric matrices -/
theorem C57_gaussian (phi : GIx ι → ℝ) (h : ((-2 : ℝ) • g1 phi).PosDef) :
    IsChainRule gaussianMoments phi (fun g => gaussianGradient g (gaussianMoments phi)) (SymmetricParts ι)
      (SymmetricParts ι) := by
  intro d hd
  refine ⟨_, hasDerivAt_gaussianMoments phi d h, fun g hg => ?_⟩
  have hs := posDef_transpose h
  have hsi : (((-2 : ℝ) • g1 phi)⁻¹).transpose = ((-2 : ℝ) • g1 phi)⁻¹ := by rw [Matrix.transpose_nonsing_inv, hs]
  exact gaussianGradient_algebra (((-2 : ℝ) • g1 phi)⁻¹) (g1 g) (g1 d) (g0 phi) (g0 g) (g0 d) hsi hg hd (mkG_eta' g) (mkG_eta' d)

end

/-! ### Dirichlet -/

section
variable {ι : Type*} [Fintype ι]

/-- The gradient for Dirichlet, with the derivative of the digamma function of the sum for all elements. -/
theorem dirichlet_chainRule [Nonempty ι] (phi : ι → ℝ) (h : ∀ i, 0 < phi i) :
    IsChainRule dirichletMoments phi (fun g i => g i * trigamma (phi i) - trigamma (∑ j, phi j) * ∑ j, g j)
      Set.univ Set.univ := by
  intro d _
  have hs : 0 < ∑ i, phi i := Finset.sum_pos (fun i _ => h i) Finset.univ_nonempty
  refine ⟨fun i => trigamma (phi i) * d i - trigamma (∑ j, phi j) * ∑ j, d j, fun i => ?_, fun g _ => ?_⟩
  · refine hasDerivAt_of_eq ((hasDerivAt_along (d i) (hasDerivAt_digamma _ (h i))).sub
      (hasDerivAt_along (∑ j, d j) (hasDerivAt_digamma _ hs))) (fun t => ?_) rfl
    simp [dirichletMoments, Finset.sum_add_distrib, Finset.mul_sum]
  · simp only [dotProduct, mul_sub, sub_mul, Finset.sum_sub_distrib]
    congr 1
    · exact Finset.sum_congr rfl fun i _ => by ring
    · rw [← Finset.sum_mul, ← Finset.mul_sum]
      ring

theorem hasDerivAt_dirichlet [Nonempty ι] (phi : ι → ℝ) (h : ∀ i, 0 < phi i) (g d : ι → ℝ) :
    HasDerivAt (fun t : ℝ => g ⬝ᵥ dirichletMoments (phi + t • d))
      ((fun i => g i * trigamma (phi i) - trigamma (∑ j, phi j) * ∑ j, g j) ⬝ᵥ d) 0 :=
  IsChainRule.hasDerivAt (dirichlet_chainRule phi h) (Set.mem_univ g) (Set.mem_univ d)

/-- **C57 fails for Dirichlet** (thus for Beta): with at least two elements, what `compute_gradient` returns is the gradient
only where the given coefficients are zero. -/
theorem C57_dirichlet_refuted [Nontrivial ι] (phi : ι → ℝ) (h : ∀ i, 0 < phi i) (g : ι → ℝ) :
    (∀ d : ι → ℝ, HasDerivAt (fun t : ℝ => g ⬝ᵥ dirichletMoments (phi + t • d)) (dirichletGradient trigamma g phi ⬝ᵥ d) 0)
      ↔ g = 0 := by
  classical
  have hs : 0 < ∑ i, phi i := Finset.sum_pos (fun i _ => h i) Finset.univ_nonempty
  have ht := trigamma_pos _ hs
  constructor
  · intro hd
    have hall : ∀ i, g i = ∑ j, g j := by
      intro i
      have e := (hd (Pi.single i 1)).unique (hasDerivAt_dirichlet phi h g (Pi.single i 1))
      simp only [dotProduct_single, mul_one, dirichletGradient] at e
      have : trigamma (∑ j, phi j) * (g i - ∑ j, g j) = 0 := by linarith
      rcases mul_eq_zero.1 this with h0 | h0
      · exact absurd h0 ht.ne'
      · linarith
    have hc : ∑ j, g j = (Fintype.card ι : ℝ) * ∑ j, g j := by
      conv_lhs => rw [Finset.sum_congr rfl fun i _ => hall i]
      simp
    have h2 : (1 : ℝ) < Fintype.card ι := by exact_mod_cast Fintype.one_lt_card
    have h0 : ∑ j, g j = 0 := by
      have : ((Fintype.card ι : ℝ) - 1) * ∑ j, g j = 0 := by linarith
      rcases mul_eq_zero.1 this with h3 | h3
      · linarith
      · exact h3
    funext i
    rw [hall i, h0]
    rfl
  · rintro rfl d
    have : dirichletGradient trigamma 0 phi = 0 := by
      funext i
      simp [dirichletGradient]
    rw [this]
    simp only [zero_dotProduct]
    exact hasDerivAt_const _ _

end

/-! ### the network -/

open Net

/-- the derivative of the lower bound, whatever the bias -/
theorem hasDerivAt_bound (G : Net) (dom) (h : NetSound G dom) (n : G.N) (s : G.State) (hs : Consistent G dom n s)
    (hcgf : ∀ q, G.observed n q = false → IsMinusGradient (G.fam n).cgf (s.phi n q) (s.u n q))
    (d dm : G.plate n → (G.fam n).I → ℝ) (hdm : ∀ q, G.observed n q = false → ∀ i,
      HasDerivAt (fun t : ℝ => (G.fam n).mom (s.phi n q + t • d q) i) (dm q i) 0) :
    HasDerivAt (fun t : ℝ => G.bound (G.setPhi n (fun q => s.phi n q + t • d q) s))
      (∑ q, if G.mask n q && !G.observed n q then
        (1 / G.ann n) * ((G.ann n • target n s q - s.phi n q) ⬝ᵥ dm q) else 0) 0 := by
  obtain ⟨K, hK⟩ := bound_setPhi h n s
  simp only [hK]
  refine HasDerivAt.const_add K (hasDerivAt_sum' fun q => ?_)
  by_cases hq : (G.mask n q && !G.observed n q) = true
  · simp only [hq, if_true]
    have ho : G.observed n q = false := by
      rcases Bool.eq_false_or_eq_true (G.observed n q) with ho | ho
      · simp [ho] at hq
      · exact ho
    have h1 := hdm q ho
    have ha := (h.ann n).ne'
    have hm := (hs q ho).2.1
    have t1 := hasDerivAt_sum' fun i => (h1 i).const_mul (target n s q i)
    have t2 := hasDerivAt_sum' fun i => (hasDerivAt_line (s.phi n q i) (d q i)).mul (h1 i)
    have t3 := t1.sub (((hcgf q ho (d q)).add t2).const_mul (1 / G.ann n))
    refine hasDerivAt_of_eq t3 (fun t => rfl) ?_
    rw [sub_dotProduct, smul_dotProduct]
    simp only [zero_smul, add_zero, zero_mul, ← hm, Finset.sum_add_distrib, smul_eq_mul]
    have e2 : ∑ i, d q i * s.u n q i = s.u n q ⬝ᵥ d q := dotProduct_comm _ _
    have e3 : ∑ i, s.phi n q i * dm q i = s.phi n q ⬝ᵥ dm q := rfl
    have e4 : ∑ i, target n s q i * dm q i = target n s q ⬝ᵥ dm q := rfl
    rw [e2, e3, e4]
    field_simp
    ring
  · have hq' : (G.mask n q && !G.observed n q) = false := by simpa using hq
    simp only [hq', Bool.false_eq_true, if_false]
    exact hasDerivAt_const _ _

/-- **C57**: in any network of the modelled kind and any state, let the node `n` have a valid distribution with its moments
and no bias, and let `compute_gradient` of its distribution follow the chain rule at the current parameters.  Then, as the
parameters of the unobserved elements of `n` move along any line, the derivative of the lower bound is the product of the
direction with the result of `get_gradient`, summed over the unobserved elements which the mask contains. -/
theorem C57_bound (G : Net) (dom) (h : NetSound G dom) (n : G.N) (s : G.State) (hb : ∀ q, G.bias n q = 0)
    (hs : Consistent G dom n s) (grad) (C D : Set ((G.fam n).I → ℝ))
    (hcgf : ∀ q, G.observed n q = false → IsMinusGradient (G.fam n).cgf (s.phi n q) (s.u n q))
    (hgrad : ∀ q, G.observed n q = false →
      IsChainRule (G.fam n).mom (s.phi n q) (fun g => grad g (s.u n q) (s.phi n q)) C D)
    (hC : ∀ q, G.observed n q = false → G.riemannianGradient n s q ∈ C)
    (d : G.plate n → (G.fam n).I → ℝ) (hd : ∀ q, G.observed n q = false → d q ∈ D) :
    HasDerivAt (fun t : ℝ => G.bound (G.setPhi n (fun q => s.phi n q + t • d q) s))
      (∑ q, if G.mask n q && !G.observed n q then
        G.euclideanGradient n grad (G.riemannianGradient n s) s q ⬝ᵥ d q else 0) 0 := by
  have hx : ∀ q, ∃ dm : (G.fam n).I → ℝ, G.observed n q = false →
      (∀ i, HasDerivAt (fun t : ℝ => (G.fam n).mom (s.phi n q + t • d q) i) (dm i) 0) ∧
      ∀ g ∈ C, g ⬝ᵥ dm = grad g (s.u n q) (s.phi n q) ⬝ᵥ d q := by
    intro q
    by_cases ho : G.observed n q = false
    · obtain ⟨dm, hdm⟩ := hgrad q ho (d q) (hd q ho)
      exact ⟨dm, fun _ => hdm⟩
    · exact ⟨0, fun h => absurd h ho⟩
  choose dm hdm using hx
  have hm := hasDerivAt_bound G dom h n s hs hcgf d dm fun q ho => (hdm q ho).1
  refine hasDerivAt_of_eq hm (fun t => rfl) (Finset.sum_congr rfl fun q _ => ?_)
  by_cases hq : (G.mask n q && !G.observed n q) = true
  · have ho : G.observed n q = false := by
      rcases Bool.eq_false_or_eq_true (G.observed n q) with ho | ho
      · simp [ho] at hq
      · exact ho
    have e0 : G.euclideanGradient n grad (G.riemannianGradient n s) s q
        = (1 / G.ann n) • grad (G.riemannianGradient n s q) (s.u n q) (s.phi n q) := by
      funext i
      simp [euclideanGradient, div_eq_inv_mul]
    have e1 : G.riemannianGradient n s q = G.ann n • target n s q - s.phi n q := by
      funext i
      simp [Net.riemannianGradient, target, hb, mul_add]
    rw [if_pos hq, if_pos hq, e0, smul_dotProduct, smul_eq_mul, ← (hdm q ho).2 _ (hC q ho), e1]
  · rw [if_neg hq, if_neg hq]

/-- **C57** for the model of normal observations (`NormalModel.lean`): for all data, all hyperparameters and all current
distributions, and both unobserved nodes, in all directions. -/
theorem C57_normal_model (P : NGParams) (data : Fin P.D → ℝ) (s : (ngNet P).State) (hs : NGState P data s)
    (d : ((ngNet P).fam NG.mu).I → ℝ) (e : ((ngNet P).fam NG.tau).I → ℝ) :
    HasDerivAt (fun t : ℝ => (ngNet P).bound ((ngNet P).setPhi NG.mu (fun q => s.phi NG.mu q + t • d) s))
      ((ngNet P).euclideanGradient NG.mu (fun g u _ => ard0Gradient g u) ((ngNet P).riemannianGradient NG.mu s) s () ⬝ᵥ d) 0 ∧
    HasDerivAt (fun t : ℝ => (ngNet P).bound ((ngNet P).setPhi NG.tau (fun q => s.phi NG.tau q + t • e) s))
      ((ngNet P).euclideanGradient NG.tau (fun g _ phi => gammaGradient trigamma g phi)
        ((ngNet P).riemannianGradient NG.tau s) s () ⬝ᵥ e) 0 := by
  obtain ⟨hc, -⟩ := hs
  obtain ⟨dm, um, -⟩ := hc NG.mu () rfl
  obtain ⟨dt, ut, -⟩ := hc NG.tau () rfl
  have dm' : s.phi NG.mu () (1 : Fin 2) < 0 := dm
  have um' : s.u NG.mu () = ardMoments0 (s.phi NG.mu ()) := um
  have ut' : s.u NG.tau () = gammaMoments (s.phi NG.tau ()) := ut
  constructor
  · have h := C57_bound (ngNet P) ngDom (ng_sound P) NG.mu s (fun _ => rfl) (hc NG.mu) (fun g u _ => ard0Gradient g u)
      Set.univ Set.univ (fun q _ => ?_) (fun q _ => ?_) (fun q _ => Set.mem_univ _) (fun _ => d) (fun q _ => Set.mem_univ _)
    · refine hasDerivAt_of_eq h (fun t => rfl) ?_
      symm
      exact Fintype.sum_unique (ι := Unit) _
    · exact um'.symm ▸ C22_gaussianARD_scalar_gradient _ dm'
    · exact um'.symm ▸ C57_gaussianARD_scalar _ dm'
  · have h := C57_bound (ngNet P) ngDom (ng_sound P) NG.tau s (fun _ => rfl) (hc NG.tau)
      (fun g _ phi => gammaGradient trigamma g phi) Set.univ Set.univ (fun q _ => ?_) (fun q _ => ?_)
      (fun q _ => Set.mem_univ _) (fun _ => e) (fun q _ => Set.mem_univ _)
    · refine hasDerivAt_of_eq h (fun t => rfl) ?_
      symm
      exact Fintype.sum_unique (ι := Unit) _
    · exact ut'.symm ▸ C22_gamma_gradient _ dt.1 dt.2
    · exact C57_gamma _ dt.1 dt.2

/-! ### what is not true -/

/-- **C57 fails with a bias**: at the best distribution of the rate the derivative of the lower bound is zero in all
directions, but `get_gradient` is not zero. -/
theorem C57_bias_refuted :
    (∀ d : ((gpNet ![0, 1]).fam GP.lam).I → ℝ, HasDerivAt (fun t : ℝ => (gpNet ![0, 1]).bound ((gpNet ![0, 1]).setPhi GP.lam
      (fun q => (gpState ![0, 1] ![-2, 1]).phi GP.lam q + t • d) (gpState ![0, 1] ![-2, 1]))) 0 0) ∧
    (gpNet ![0, 1]).euclideanGradient GP.lam (fun g _ phi => gammaGradient trigamma g phi)
      ((gpNet ![0, 1]).riemannianGradient GP.lam (gpState ![0, 1] ![-2, 1])) (gpState ![0, 1] ![-2, 1]) () (0 : Fin 2)
      = 1 / 2 := by
  have hcons : Consistent (gpNet ![0, 1]) gpDom GP.lam (gpState ![0, 1] ![-2, 1]) := by
    intro q ho
    refine ⟨?_, rfl, rfl⟩
    change (![-2, 1] : Fin 2 → ℝ) 0 < 0 ∧ 0 < (![-2, 1] : Fin 2 → ℝ) 1
    norm_num
  constructor
  · intro d
    obtain ⟨dm, hdm, -⟩ := C57_gamma ![-2, 1] (by norm_num) (by norm_num) d (Set.mem_univ _)
    have h := hasDerivAt_bound (gpNet ![0, 1]) gpDom (gp_sound _) GP.lam (gpState ![0, 1] ![-2, 1]) hcons
      (fun q _ => C22_gamma_gradient ![-2, 1] (by norm_num) (by norm_num)) (fun _ => d) (fun _ => dm) (fun q _ => hdm)
    refine hasDerivAt_of_eq h (fun t => rfl) ?_
    symm
    refine Finset.sum_eq_zero fun q _ => ?_
    have e : (gpNet ![0, 1]).ann GP.lam • target (G := gpNet ![0, 1]) GP.lam (gpState ![0, 1] ![-2, 1]) q
        - (gpState ![0, 1] ![-2, 1]).phi GP.lam q = 0 := by
      have e1 := gp_target ![0, 1] ![-2, 1]
      funext j
      have e2 : ((gpNet ![0, 1]).ann GP.lam • target (G := gpNet ![0, 1]) GP.lam (gpState ![0, 1] ![-2, 1]) ()
        - (gpState ![0, 1] ![-2, 1]).phi GP.lam ()) j = 1 * target (G := gpNet ![0, 1]) GP.lam (gpState ![0, 1] ![-2, 1]) () j
          - (![-2, 1] : Fin 2 → ℝ) j := rfl
      refine e2.trans ?_
      rw [e1, one_mul]
      exact sub_self _
    rw [e]
    have e3 : (0 : ((gpNet ![0, 1]).fam GP.lam).I → ℝ) ⬝ᵥ (dm : ((gpNet ![0, 1]).fam GP.lam).I → ℝ) = 0 := zero_dotProduct _
    have e4 : (1 : ℝ) / (gpNet ![0, 1]).ann GP.lam * ((0 : ((gpNet ![0, 1]).fam GP.lam).I → ℝ) ⬝ᵥ
      (dm : ((gpNet ![0, 1]).fam GP.lam).I → ℝ)) = 0 := by rw [e3, mul_zero]
    exact (if_congr Iff.rfl e4 rfl).trans (ite_self _)
  · have hr : (gpNet ![0, 1]).riemannianGradient GP.lam (gpState ![0, 1] ![-2, 1]) () = (![0, 1] : Fin 2 → ℝ) := by
      funext j
      have e : (gpNet ![0, 1]).riemannianGradient GP.lam (gpState ![0, 1] ![-2, 1]) () j
          = (gpNet ![0, 1]).newPhi GP.lam (gpState ![0, 1] ![-2, 1]) () j - (![-2, 1] : Fin 2 → ℝ) j := rfl
      rw [e, gp_newPhi]
      change Fin 2 at j
      fin_cases j
      · change (-2 + (![0, 1] : Fin 2 → ℝ) 0) - -2 = 0
        norm_num
      · change (1 + (![0, 1] : Fin 2 → ℝ) 1) - 1 = 1
        norm_num
    have e : (gpNet ![0, 1]).euclideanGradient GP.lam (fun g _ phi => gammaGradient trigamma g phi)
        ((gpNet ![0, 1]).riemannianGradient GP.lam (gpState ![0, 1] ![-2, 1])) (gpState ![0, 1] ![-2, 1]) () (0 : Fin 2)
        = gammaGradient trigamma ((gpNet ![0, 1]).riemannianGradient GP.lam (gpState ![0, 1] ![-2, 1]) ()) ![-2, 1] 0 / 1 := rfl
    rw [e, hr]
    simp [gammaGradient]

/-- `x = Gamma(1, 1)`, without children and not observed: its mask is false. -/
noncomputable def leafNet : Net where
  N := Unit
  fam := fun _ => gammaFamily
  plate := fun _ => Unit
  ann := fun _ => 1
  bias := fun _ _ _ => 0
  observed := fun _ _ => false
  mask := fun _ _ => false
  slot := fun _ k _ _ => if (show Fin 2 from k) = 0 then gammaPriorFixed 1 else gammaFixed 1
  back := fun _ _ _ _ _ _ _ => 0

/-- **C57 fails outside of the mask**: the lower bound does not depend on an unobserved node without children, but unless
its distribution is the prior `get_gradient` is not zero. -/
theorem C57_masked_refuted (s : leafNet.State) (hs : s.phi () () = (![-2, 1] : Fin 2 → ℝ)) :
    (∀ s' : leafNet.State, leafNet.bound s' = 0) ∧
    leafNet.euclideanGradient () (fun g _ phi => gammaGradient trigamma g phi) (leafNet.riemannianGradient () s) s ()
      (0 : Fin 2) = 1 / 4 := by
  refine ⟨fun s' => ?_, ?_⟩
  · refine Finset.sum_eq_zero fun n _ => Finset.sum_eq_zero fun q _ => ?_
    rfl
  · have hr : leafNet.riemannianGradient () s () = (![1, 0] : Fin 2 → ℝ) := by
      funext j
      have e : leafNet.riemannianGradient () s () j
          = 1 * ((gammaPhi (gammaPriorFixed 1) (gammaFixed 1) j + 0) + ∑ _c : Unit, ∑ _k : Fin 2, (0 : ℝ))
            - s.phi () () j := rfl
      rw [e, hs]
      change Fin 2 at j
      fin_cases j
      · simp [gammaPhi, gammaPriorFixed, gammaFixed]
        norm_num
      · simp [gammaPhi, gammaPriorFixed, gammaFixed]
    have e : leafNet.euclideanGradient () (fun g _ phi => gammaGradient trigamma g phi) (leafNet.riemannianGradient () s) s ()
        (0 : Fin 2) = gammaGradient trigamma (leafNet.riemannianGradient () s ()) (s.phi () ()) 0 / 1 := rfl
    rw [e, hr, hs]
    simp [gammaGradient]
    norm_num

/-! ### instances -/

/-- a gamma distribution with rate 2 and shape 3 -/
example : IsChainRule gammaMoments ![-2, 3] (fun g => gammaGradient trigamma g ![-2, 3]) Set.univ Set.univ :=
  C57_gamma _ (by norm_num) (by norm_num)

/-- ten trials, three categories; the coefficient of the first direction for `g = (1, 0, 0)` at the uniform distribution is
`10/3 (1 - 1/3)` -/
example : IsChainRule (multinomialMoments 10) (0 : Fin 3 → ℝ)
    (fun g => multinomialGradient 10 g (multinomialMoments 10 0)) Set.univ Set.univ ∧
    multinomialGradient 10 ![1, 0, 0] (multinomialMoments 10 (0 : Fin 3 → ℝ)) 0 = 20 / 9 := by
  refine ⟨C57_multinomial 10 (by norm_num) 0, ?_⟩
  simp [multinomialGradient, multinomialMoments, expNormalized_eq, Fin.sum_univ_three]
  norm_num

/-- a Gaussian with mean `(1, 1)` and identity covariance -/
example : IsChainRule gaussianMoments (mkG ![1, 1] (-(1 / 2 : ℝ) • (1 : Matrix (Fin 2) (Fin 2) ℝ)))
    (fun g => gaussianGradient g (gaussianMoments (mkG ![1, 1] (-(1 / 2 : ℝ) • (1 : Matrix (Fin 2) (Fin 2) ℝ)))))
    (SymmetricParts (Fin 2)) (SymmetricParts (Fin 2)) ∧ (mkG ![1, 2] 1 : GIx (Fin 2) → ℝ) ∈ SymmetricParts (Fin 2) := by
  refine ⟨C57_gaussian _ ?_, ?_⟩
  · have : (-2 : ℝ) • g1 (mkG ![1, 1] (-(1 / 2 : ℝ) • (1 : Matrix (Fin 2) (Fin 2) ℝ))) = 1 := by
      change (-2 : ℝ) • (-(1 / 2 : ℝ) • (1 : Matrix (Fin 2) (Fin 2) ℝ)) = 1
      rw [smul_smul]
      norm_num
    rw [this]
    exact Matrix.PosDef.one
  · exact Matrix.transpose_one

/-- a Dirichlet distribution for which the gradient is wrong -/
example : ¬ ∀ d : Fin 2 → ℝ, HasDerivAt (fun t : ℝ => (![1, 0] : Fin 2 → ℝ) ⬝ᵥ dirichletMoments (![1, 2] + t • d))
    (dirichletGradient trigamma ![1, 0] ![1, 2] ⬝ᵥ d) 0 := by
  rw [C57_dirichlet_refuted ![1, 2] (by intro i; fin_cases i <;> norm_num)]
  intro h
  have := congrFun h 0
  norm_num at this

end Verif
