import Verif.Props.EvidenceFamilies
import Verif.Props.NormalModel
import Verif.Props.LogPdf
import Verif.Props.FactorModel
import Verif.Props.StateSpace
import Verif.Props.MixtureModel
import Verif.Props.HiddenMarkov
import Verif.Props.PhiBias

/-!
# C90 for complete models

The normal model with the evidence written as the integral of the product of the textbook densities.
-/

namespace Verif
open Spec MeasureTheory Matrix Set

/-- Density of a normal variable with mean `mu` and precision `alpha` -/
noncomputable def Spec.normalPdf (mu alpha x : ℝ) : ℝ :=
  Real.sqrt (alpha / (2 * Real.pi)) * Real.exp (-alpha / 2 * (x - mu) ^ 2)

theorem C21_gaussianARD_scalar (mu alpha x : ℝ) (ha : 0 < alpha) :
    ard0Phi (wrap0 ![mu, mu * mu] (gammaFixed alpha)) ⬝ᵥ ardFixed0 x + ard0CgfP (wrap0 ![mu, mu * mu] (gammaFixed alpha)) + ardF 1
      = Real.log (normalPdf mu alpha x) := by
  have hp := Real.pi_pos
  rw [normalPdf, Real.log_mul (by positivity) (by positivity), Real.log_sqrt (by positivity), Real.log_exp,
    Real.log_div (by positivity) (by positivity)]
  simp only [dotProduct, Fin.sum_univ_two, ard0Phi, ard0CgfP, wrap0, gammaFixed, ardFixed0, ardF, Matrix.cons_val, Nat.cast_one]
  ring

/-- the evidence of a model with two latent variables as an integral over the two -/
theorem evidence_two {G : Net} {dom : ∀ n, Set ((G.fam n).I → ℝ)} (R : ∀ n, Sampled (G.fam n) (dom n)) (data : G.Moments)
    (f : ∀ n, G.plate n → ℝ) (e : Fin 2 ≃ Latent G) (J : (R (e 0).1.1).X → (R (e 1).1.1).X → ℝ)
    (hJ : ∀ z, logJoint G R data f z = J (z (e 0)) (z (e 1))) :
    evidence G R data f
      = ∫⁻ x, ENNReal.ofReal (Real.exp (J x.1 x.2)) ∂((R (e 0).1.1).vol.prod (R (e 1).1.1).vol) := by
  unfold evidence
  rw [← (measurePreserving_piCongrLeft (fun l : Latent G => (R l.1.1).vol) e).lintegral_comp_emb (MeasurableEquiv.measurableEmbedding _),
    ← (measurePreserving_piFinTwo fun i => (R (e i).1.1).vol).lintegral_comp_emb (MeasurableEquiv.measurableEmbedding _)]
  refine lintegral_congr fun x => ?_
  simp only [hJ]
  congr 3
  · exact MeasurableEquiv.piCongrLeft_apply_apply _ _ _
  · exact MeasurableEquiv.piCongrLeft_apply_apply _ _ _

/-- the evidence of a model with one latent variable -/
theorem evidence_one {G : Net} {dom : ∀ n, Set ((G.fam n).I → ℝ)} (R : ∀ n, Sampled (G.fam n) (dom n)) (data : G.Moments)
    (f : ∀ n, G.plate n → ℝ) (e : Unique (Latent G)) (J : (R (default : Latent G).1.1).X → ℝ)
    (hJ : ∀ z, logJoint G R data f z = J (z default)) :
    evidence G R data f = ∫⁻ x, ENNReal.ofReal (Real.exp (J x)) ∂(R (default : Latent G).1.1).vol := by
  unfold evidence
  rw [← (measurePreserving_piUnique fun e : Latent G => (R e.1.1).vol).lintegral_comp_emb
    (MeasurableEquiv.measurableEmbedding _)]
  refine lintegral_congr fun x => ?_
  rw [hJ]
  rfl

section
variable (P : NGParams)

noncomputable def ngSampled : ∀ n, Sampled ((ngNet P).fam n) (ngDom n)
  | .mu => ard0Sampled
  | .tau => gammaSampled
  | .y => ard0Sampled

/-- the latent variables: `mu` and `tau` -/
def ngLatent : Fin 2 ≃ Latent (ngNet P) where
  toFun i := if i = 0 then ⟨⟨NG.mu, ()⟩, rfl⟩ else ⟨⟨NG.tau, ()⟩, rfl⟩
  invFun e := match e with
    | ⟨⟨NG.mu, _⟩, _⟩ => 0
    | ⟨⟨NG.tau, _⟩, _⟩ => 1
    | ⟨⟨NG.y, _⟩, h⟩ => absurd h (by simp [ngNet])
  left_inv i := by fin_cases i <;> rfl
  right_inv e := by
    obtain ⟨⟨n, q⟩, h⟩ := e
    change NG at n
    cases n
    · rfl
    · rfl
    · exact absurd h (by simp [ngNet])

theorem ng_logJoint (d : (ngNet P).Moments) (f : ∀ n, (ngNet P).plate n → ℝ) (z : ∀ e : Latent (ngNet P), (ngSampled P e.1.1).X) (mu tau : ℝ)
    (hmu : z ⟨⟨NG.mu, ()⟩, rfl⟩ = mu) (htau : z ⟨⟨NG.tau, ()⟩, rfl⟩ = tau) :
    logJoint (ngNet P) (ngSampled P) d f z
      = (ard0Phi (wrap0 ![P.mu0, P.mu0 * P.mu0] (gammaFixed P.alpha0)) ⬝ᵥ ardFixed0 mu
          + ard0CgfP (wrap0 ![P.mu0, P.mu0 * P.mu0] (gammaFixed P.alpha0)) + ardF 1)
        + (gammaPhi (gammaPriorFixed P.a0) (gammaFixed P.b0) ⬝ᵥ gammaFixed tau
          + gammaCgfP (gammaPriorFixed P.a0) (gammaFixed P.b0) + gammaF tau)
        + ∑ p : Fin P.D, (ard0Phi (wrap0 (ardFixed0 mu) (gammaFixed tau)) ⬝ᵥ d NG.y p
          + ard0CgfP (wrap0 (ardFixed0 mu) (gammaFixed tau)) + f NG.y p) := by
  subst hmu htau
  unfold logJoint
  have hN : ∀ g : NG → ℝ, ∑ n, g n = g .mu + g .tau + g .y := by
    intro g
    rw [show (Finset.univ : Finset NG) = {.mu, .tau, .y} from rfl, Finset.sum_insert (by decide), Finset.sum_insert (by decide),
      Finset.sum_singleton, add_assoc]
  refine (hN _).trans ?_
  refine congrArg₂ (· + ·) (congrArg₂ (· + ·) ?_ ?_) ?_
  · exact Fintype.sum_unique (ι := Unit) _
  · exact Fintype.sum_unique (ι := Unit) _
  · exact Finset.sum_congr rfl fun p _ => rfl

/-- The evidence of the normal model is the integral of the product of the densities over `mu` and `tau`. -/
theorem ng_evidence (data : Fin P.D → ℝ) (ha : 0 < P.alpha0) (ha0 : 0 < P.a0) (hb0 : 0 < P.b0) (d : (ngNet P).Moments)
    (hd : ∀ p : Fin P.D, d NG.y p = ardFixed0 (data p)) (f : ∀ n, (ngNet P).plate n → ℝ)
    (hf : ∀ p : Fin P.D, f NG.y p = ardF 1) :
    evidence (ngNet P) (ngSampled P) d f = ∫⁻ mu : ℝ, ∫⁻ tau in Ioi (0 : ℝ), ENNReal.ofReal
      (normalPdf P.mu0 P.alpha0 mu * gammaPdf P.a0 P.b0 tau * ∏ p, normalPdf mu tau (data p)) := by
  have hm : Measurable fun x : ℝ × ℝ => ENNReal.ofReal (normalPdf P.mu0 P.alpha0 x.1 * gammaPdf P.a0 P.b0 x.2
      * ∏ p, normalPdf x.1 x.2 (data p)) := by
    unfold normalPdf gammaPdf
    fun_prop
  have h0 : ∀ᵐ x : ℝ × ℝ ∂(volume.prod (volume.restrict (Ioi (0 : ℝ)))), 0 < x.2 :=
    Measure.quasiMeasurePreserving_snd.ae (ae_restrict_mem measurableSet_Ioi)
  have hg : ∀ x : ℝ × ℝ, 0 < x.2 → Real.exp (
      (ard0Phi (wrap0 ![P.mu0, P.mu0 * P.mu0] (gammaFixed P.alpha0)) ⬝ᵥ ardFixed0 x.1
          + ard0CgfP (wrap0 ![P.mu0, P.mu0 * P.mu0] (gammaFixed P.alpha0)) + ardF 1)
        + (gammaPhi (gammaPriorFixed P.a0) (gammaFixed P.b0) ⬝ᵥ gammaFixed x.2
          + gammaCgfP (gammaPriorFixed P.a0) (gammaFixed P.b0) + gammaF x.2)
        + ∑ p : Fin P.D, (ard0Phi (wrap0 (ardFixed0 x.1) (gammaFixed x.2)) ⬝ᵥ d NG.y p
          + ard0CgfP (wrap0 (ardFixed0 x.1) (gammaFixed x.2)) + f NG.y p))
      = normalPdf P.mu0 P.alpha0 x.1 * gammaPdf P.a0 P.b0 x.2 * ∏ p, normalPdf x.1 x.2 (data p) := by
    intro x hx
    have n0 : ∀ mu tau y : ℝ, 0 < tau → 0 < normalPdf mu tau y := fun mu tau y h => by
      have := Real.pi_pos
      unfold normalPdf
      positivity
    have hG : 0 < gammaPdf P.a0 P.b0 x.2 := by
      have := Real.Gamma_pos_of_pos ha0
      unfold gammaPdf
      positivity
    have h2 := C21_gamma P.a0 P.b0 x.2 ha0 hb0 hx
    rw [logpdf_eq] at h2
    have h3 : ∀ p : Fin P.D, (ard0Phi (wrap0 (ardFixed0 x.1) (gammaFixed x.2)) ⬝ᵥ d NG.y p
          + ard0CgfP (wrap0 (ardFixed0 x.1) (gammaFixed x.2)) + f NG.y p) = Real.log (normalPdf x.1 x.2 (data p)) := by
      intro p
      rw [hd p, hf p]
      exact C21_gaussianARD_scalar x.1 x.2 (data p) hx
    rw [C21_gaussianARD_scalar _ _ _ ha, h2, Finset.sum_congr rfl fun p _ => h3 p, Real.exp_add, Real.exp_add, Real.exp_sum,
      Real.exp_log (n0 _ _ _ ha), Real.exp_log hG]
    simp only [Real.exp_log (n0 _ _ _ hx)]
  refine (evidence_two (ngSampled P) d f (ngLatent P) (fun mu tau : ℝ =>
      (ard0Phi (wrap0 ![P.mu0, P.mu0 * P.mu0] (gammaFixed P.alpha0)) ⬝ᵥ ardFixed0 mu
          + ard0CgfP (wrap0 ![P.mu0, P.mu0 * P.mu0] (gammaFixed P.alpha0)) + ardF 1)
        + (gammaPhi (gammaPriorFixed P.a0) (gammaFixed P.b0) ⬝ᵥ gammaFixed tau
          + gammaCgfP (gammaPriorFixed P.a0) (gammaFixed P.b0) + gammaF tau)
        + ∑ p : Fin P.D, (ard0Phi (wrap0 (ardFixed0 mu) (gammaFixed tau)) ⬝ᵥ d NG.y p
          + ard0CgfP (wrap0 (ardFixed0 mu) (gammaFixed tau)) + f NG.y p)) fun z => ng_logJoint P d f z _ _ rfl rfl).trans ?_
  refine Eq.trans ?_ (lintegral_prod _ hm.aemeasurable)
  refine lintegral_congr_ae ?_
  filter_upwards [h0] with x hx
  exact congrArg ENNReal.ofReal (hg x hx)

/-- **C90, normal model** Whatever sequence of updates is made, the exponential of the lower bound which the library
computes is at most the evidence: the integral, over `mu` and `tau`, of the product of the densities of the model at the data. -/
theorem C90_normal_model (data : Fin P.D → ℝ) (ha : 0 < P.alpha0) (ha0 : 0 < P.a0) (hb0 : 0 < P.b0)
    (s : (ngNet P).State) (hs : NGState P data s) (hf : ∀ p : Fin P.D, s.f NG.y p = ardF 1) (ns : List NG) :
    ENNReal.ofReal (Real.exp ((ngNet P).bound (ns.foldl (fun s n => (ngNet P).update n s) s)))
      ≤ ∫⁻ mu : ℝ, ∫⁻ tau in Ioi (0 : ℝ), ENNReal.ofReal
        (normalPdf P.mu0 P.alpha0 mu * gammaPdf P.a0 P.b0 tau * ∏ p, normalPdf mu tau (data p)) := by
  have h := (C23_normal_model P data ha ha0 hb0 s hs ns).2
  have hf' : ∀ p : Fin P.D, (ns.foldl (fun s n => (ngNet P).update n s) s).f NG.y p = ardF 1 := by
    clear hs h
    induction ns generalizing s with
    | nil => exact hf
    | cons n ns ih => exact ih _ hf
  generalize ns.foldl (fun s n => (ngNet P).update n s) s = s' at h hf'
  rw [← ng_evidence P data ha ha0 hb0 s'.u h.2 s'.f hf']
  exact C90_lower_bound (ng_sound P) (ngSampled P) (fun _ => rfl) s'.u s'.f s' ⟨fun _ _ _ => rfl, fun _ _ _ => rfl⟩ h.1

end

/-! ### models whose evidence is not a closed formula -/

/-- the parents of the elements in the mask are in the mask -/
def Spec.MaskClosed (G : Net) : Prop :=
  ∀ n q, G.mask n q = true → ∀ u v : G.Moments, (∀ m p, G.mask m p = true → u m p = v m p) → G.parents n u q = G.parents n v q

/-- The evidence depends on the observed values only. -/
theorem evidence_congr {G : Net} {dom : ∀ n, Set ((G.fam n).I → ℝ)} (hG : MaskClosed G) (R : ∀ n, Sampled (G.fam n) (dom n))
    (d d' : G.Moments) (f f' : ∀ n, G.plate n → ℝ)
    (hd : ∀ n q, G.mask n q = true → G.observed n q = true → d n q = d' n q)
    (hf : ∀ n q, G.mask n q = true → G.observed n q = true → f n q = f' n q) : evidence G R d f = evidence G R d' f' := by
  unfold evidence
  refine lintegral_congr fun z => ?_
  have hst : ∀ n q, G.mask n q = true → statistics G R d z n q = statistics G R d' z n q := by
    intro n q hm
    unfold statistics
    by_cases h : (G.mask n q && !G.observed n q) = true
    · rw [dif_pos h, dif_pos h]
    · rw [dif_neg h, dif_neg h]
      refine hd n q hm ?_
      cases ho : G.observed n q
      · rw [hm, ho] at h; exact absurd rfl h
      · rfl
  have e : logJoint G R d f z = logJoint G R d' f' z := by
    unfold logJoint
    refine Finset.sum_congr rfl fun n _ => Finset.sum_congr rfl fun q _ => ?_
    by_cases hm : G.mask n q = true
    · rw [if_pos hm, if_pos hm, hst n q hm, hG n q hm _ _ hst]
      congr 1
      by_cases h : (G.mask n q && !G.observed n q) = true
      · rw [dif_pos h, dif_pos h]
      · rw [dif_neg h, dif_neg h]
        refine hf n q hm ?_
        cases ho : G.observed n q
        · rw [hm, ho] at h; exact absurd rfl h
        · rfl
    · rw [if_neg hm, if_neg hm]
  rw [e]

theorem updates_f {G : Net} (s : G.State) (ns : List G.N) : (ns.foldl (fun s n => G.update n s) s).f = s.f := by
  induction ns generalizing s with
  | nil => rfl
  | cons n ns ih => exact ih _

theorem holdsData_self {G : Net} (s : G.State) : HoldsData s.u s.f s := ⟨fun _ _ _ => rfl, fun _ _ _ => rfl⟩

section
variable (P : FAParams)

noncomputable def faSampled : ∀ n, Sampled ((faNet P).fam n) (faDom P n)
  | .alpha => gammaSampled
  | .w => ardSampled
  | .x => ardSampled
  | .tau => gammaSampled
  | .y => ard0Sampled

/-- the observations -/
def faData (data : Fin P.M → Fin P.N → ℝ) : (faNet P).Moments
  | .y => fun q => ![data q.1 q.2, data q.1 q.2 * data q.1 q.2]
  | .alpha => fun _ => 0
  | .w => fun _ => 0
  | .x => fun _ => 0
  | .tau => fun _ => 0

theorem fa_closed : MaskClosed (faNet P) := by
  intro n q hm u v h
  funext k
  change FA at n
  cases n
  · rfl
  · obtain ⟨j, hj⟩ := of_decide_eq_true (show decide (∃ j, P.mask q j = true) = true from hm)
    have e : u FA.alpha = v FA.alpha := funext fun d => h FA.alpha d (decide_eq_true ⟨q, j, hj⟩)
    show faSlot P .w k u q = faSlot P .w k v q
    simp only [faSlot, e]
    rfl
  · rfl
  · rfl
  · obtain ⟨i, j⟩ := q
    have hm' : P.mask i j = true := hm
    have e1 : u FA.w i = v FA.w i := h FA.w i (decide_eq_true ⟨j, hm'⟩)
    have e2 : u FA.x j = v FA.x j := h FA.x j (decide_eq_true ⟨i, hm'⟩)
    have e3 : u FA.tau () = v FA.tau () := h FA.tau () (decide_eq_true ⟨i, j, hm'⟩)
    show faSlot P .y k u (i, j) = faSlot P .y k v (i, j)
    simp only [faSlot, e1, e2, e3]
    rfl

/-- **C90, factor analysis** The bound after any sequence of updates is at most the logarithm of the evidence: the joint density
with the loadings, the factors, the relevances and the noise level integrated out. -/
theorem C90_factor_model (data : Fin P.M → Fin P.N → ℝ) (hP : FAValid P) (s : (faNet P).State) (hs : FAState P data s)
    (hf : ∀ i j, P.mask i j = true → s.f FA.y (i, j) = ardF 1) (ns : List FA) :
    ENNReal.ofReal (Real.exp ((faNet P).bound (ns.foldl (fun s n => (faNet P).update n s) s)))
      ≤ evidence (faNet P) (faSampled P) (faData P data) fun _ _ => ardF 1 := by
  have h := (C23_factor_model P data hP s hs ns).2
  refine (C90_lower_bound (fa_sound P) (faSampled P) (fun _ => rfl) _ _ _ (holdsData_self _) h.1).trans (le_of_eq ?_)
  refine evidence_congr (fa_closed P) _ _ _ _ _ (fun n q hm ho => ?_) fun n q hm ho => ?_
  all_goals
    change FA at n
    cases n
    case y => first | exact h.2 q.1 q.2 hm | exact (congrFun (congrFun (updates_f s ns) _) q).trans (hf q.1 q.2 hm)
    all_goals exact Bool.noConfusion (show false = true from ho)

end

section
variable (P : SSParams)

noncomputable def ssSampled : ∀ n, Sampled ((ssNet P).fam n) (ssDom P n)
  | .alpha => gammaSampled
  | .a => ardSampled
  | .x => gmcSampled (Fin P.K)
  | .gamma => gammaSampled
  | .c => ardSampled
  | .tau => gammaSampled
  | .y => ard0Sampled

/-- the observations -/
def ssData (data : Fin P.J → Fin (P.M + 1) → ℝ) : (ssNet P).Moments
  | .y => fun q => ![data q.1 q.2, data q.1 q.2 * data q.1 q.2]
  | .alpha => fun _ => 0
  | .a => fun _ => 0
  | .x => fun _ => 0
  | .gamma => fun _ => 0
  | .c => fun _ => 0
  | .tau => fun _ => 0

theorem ss_closed : MaskClosed (ssNet P) := by
  intro n q hm u v h
  funext k
  change SS at n
  cases n
  · rfl
  · obtain ⟨hM, hx⟩ := of_decide_eq_true (show decide (0 < P.M ∧ ∃ i j, P.mask i j = true) = true from hm)
    have hD : 0 < P.D := lt_of_le_of_lt (Nat.zero_le _) (show Fin P.D from q).2
    have e : u SS.alpha = v SS.alpha := funext fun d => h SS.alpha d (decide_eq_true ⟨hD, hM, hx⟩)
    show ssSlot P .a k u q = ssSlot P .a k v q
    simp only [ssSlot, e]
    rfl
  · have hx := of_decide_eq_true (show decide (∃ i j, P.mask i j = true) = true from hm)
    have e : (fun (_ : Fin P.M) (d : Fin P.D) => u SS.a d) = fun (_ : Fin P.M) (d : Fin P.D) => v SS.a d := by
      funext m d
      exact h SS.a d (decide_eq_true ⟨lt_of_le_of_lt (Nat.zero_le _) m.2, hx⟩)
    show ssSlot P .x k u q = ssSlot P .x k v q
    simp only [ssSlot]
    rw [e]
  · rfl
  · obtain ⟨j, hj⟩ := of_decide_eq_true (show decide (∃ j, P.mask q j = true) = true from hm)
    have e : u SS.gamma = v SS.gamma := funext fun d => h SS.gamma d (decide_eq_true ⟨q, j, hj⟩)
    show ssSlot P .c k u q = ssSlot P .c k v q
    simp only [ssSlot, e]
    rfl
  · rfl
  · obtain ⟨i, j⟩ := q
    have hm' : P.mask i j = true := hm
    have e1 : u SS.c i = v SS.c i := h SS.c i (decide_eq_true ⟨j, hm'⟩)
    have e2 : u SS.x () = v SS.x () := h SS.x () (decide_eq_true ⟨i, j, hm'⟩)
    have e3 : u SS.tau () = v SS.tau () := h SS.tau () (decide_eq_true ⟨i, j, hm'⟩)
    show ssSlot P .y k u (i, j) = ssSlot P .y k v (i, j)
    simp only [ssSlot, e1, e2, e3]
    rfl

/-- **C90, linear state-space model** -/
theorem C90_state_space (data : Fin P.J → Fin (P.M + 1) → ℝ) (hP : SSValid P) (s : (ssNet P).State)
    (hs : SSState P data s) (hf : ∀ i j, P.mask i j = true → s.f SS.y (i, j) = ardF 1) (ns : List SS) :
    ENNReal.ofReal (Real.exp ((ssNet P).bound (ns.foldl (fun s n => (ssNet P).update n s) s)))
      ≤ evidence (ssNet P) (ssSampled P) (ssData P data) fun _ _ => ardF 1 := by
  have h := (C23_state_space P data hP s hs ns).2
  refine (C90_lower_bound (ss_sound P) (ssSampled P) (fun _ => rfl) _ _ _ (holdsData_self _) h.1).trans (le_of_eq ?_)
  refine evidence_congr (ss_closed P) _ _ _ _ _ (fun n q hm ho => ?_) fun n q hm ho => ?_
  all_goals
    change SS at n
    cases n
    case y => first | exact h.2 q.1 q.2 hm | exact (congrFun (congrFun (updates_f s ns) _) q).trans (hf q.1 q.2 hm)
    all_goals exact Bool.noConfusion (show false = true from ho)

end

/-- the symmetric matrices -/
def symmetricMoments (ι : Type) : Submodule ℝ (WIx ι → ℝ) where
  carrier := {u | (w0 u).transpose = w0 u}
  zero_mem' := rfl
  add_mem' {a b} ha hb := by
    have ha' : (w0 a).transpose = w0 a := ha
    have hb' : (w0 b).transpose = w0 b := hb
    show (w0 a + w0 b).transpose = w0 a + w0 b
    rw [Matrix.transpose_add, ha', hb']
  smul_mem' c a ha := by
    have ha' : (w0 a).transpose = w0 a := ha
    show (c • w0 a).transpose = c • w0 a
    rw [Matrix.transpose_smul, ha']

theorem wishartFixed_symmetric {ι : Type} (v : Sym2 ι → ℝ) [Fintype ι] [DecidableEq ι] :
    (w0 (wishartFixed (symMat v))).transpose = w0 (wishartFixed (symMat v)) := by
  ext i j
  show v s(j, i) = v s(i, j)
  rw [Sym2.eq_swap]

noncomputable def dirichletSampled' {K : ℕ} (hK : 0 < K) : Sampled (dirichletFamily (Fin K)) {phi : Fin K → ℝ | ∀ i, 0 < phi i} :=
  match K, hK with
  | n + 1, _ => dirichletSampled n

section
variable (P : GMParams)

noncomputable def gmSampled (hK : 0 < P.K) : ∀ n, Sampled ((gmNet P).fam n) (gmDom P n)
  | .alpha => dirichletSampled' hK
  | .z => haveI : Nonempty (Fin P.K) := ⟨⟨0, hK⟩⟩; multinomialSampled 1
  | .mu => gaussianSampled
  | .lam => wishartSampled _
  | .y => mixtureSampled gaussianSampled (Fin P.K)

def gmSub : ∀ n, Submodule ℝ (((gmNet P).fam n).I → ℝ)
  | .lam => symmetricMoments (Fin P.D)
  | .alpha => ⊤
  | .z => ⊤
  | .mu => ⊤
  | .y => ⊤

/-- the observations -/
def gmData (data : Fin P.N → Fin P.D → ℝ) : (gmNet P).Moments
  | .y => fun i => gaussianFixed (data i)
  | .alpha => fun _ => 0
  | .z => fun _ => 0
  | .mu => fun _ => 0
  | .lam => fun _ => 0

theorem gm_closed : MaskClosed (gmNet P) := by
  intro n q hm u v h
  funext k
  change GM at n
  cases n
  · rfl
  · have e : u GM.alpha () = v GM.alpha () := h GM.alpha () (decide_eq_true ⟨q, hm⟩)
    show gmSlot P .z k u q = gmSlot P .z k v q
    simp only [gmSlot, e]
    rfl
  · rfl
  · rfl
  · have e1 : u GM.z q = v GM.z q := h GM.z q hm
    have e2 : u GM.mu = v GM.mu := funext fun c => h GM.mu c (decide_eq_true ⟨q, hm⟩)
    have e3 : u GM.lam = v GM.lam := funext fun c => h GM.lam c (decide_eq_true ⟨q, hm⟩)
    show gmSlot P .y k u q = gmSlot P .y k v q
    simp only [gmSlot, e1, e2, e3]

/-- **C90, mixture of Gaussians** -/
theorem C90_gaussian_mixture (data : Fin P.N → Fin P.D → ℝ) (hP : GMValid P) (s : (gmNet P).State) (hs : GMState P data s)
    (hf : ∀ i, P.mask i = true → s.f GM.y i = gaussianF P.D) (ns : List GM) :
    ENNReal.ofReal (Real.exp ((gmNet P).bound (ns.foldl (fun s n => (gmNet P).update n s) s)))
      ≤ evidence (gmNet P) (gmSampled P hP.1) (gmData P data) fun _ _ => gaussianF P.D := by
  have h := (C23_gaussian_mixture P data hP s hs ns).2
  refine (C90_lower_bound_subspace (gm_sound P hP.1) (gmSub P) (fun n => ?_) (gmSampled P hP.1) (fun _ => rfl) _ _ _
    (holdsData_self _) h.1 (fun n x => ?_) (gm_moments P data _ h)).trans (le_of_eq ?_)
  · change GM at n
    cases n <;> rfl
  · change GM at n
    cases n
    case lam => exact wishartFixed_symmetric (ι := Fin P.D) x
    all_goals exact Set.mem_univ _
  refine evidence_congr (gm_closed P) _ _ _ _ _ (fun n q hm ho => ?_) fun n q hm ho => ?_
  all_goals
    change GM at n
    cases n
    case y => first | exact h.2 q hm | exact (congrFun (congrFun (updates_f s ns) _) q).trans (hf q hm)
    all_goals exact Bool.noConfusion (show false = true from ho)

end

section
variable (P : HMParams)

noncomputable def hmSampled (hK : 0 < P.K) (hN : 0 < P.N) : ∀ n, Sampled ((hmNet P).fam n) (hmDom P n)
  | .a0 => dirichletSampled' hK
  | .A => dirichletSampled' hK
  | .z => chainSampled hK hN
  | .mu => gaussianSampled
  | .lam => wishartSampled _
  | .y => mixtureSampled gaussianSampled (Fin P.K)

def hmSub : ∀ n, Submodule ℝ (((hmNet P).fam n).I → ℝ)
  | .lam => symmetricMoments (Fin P.D)
  | .a0 => ⊤
  | .A => ⊤
  | .z => ⊤
  | .mu => ⊤
  | .y => ⊤

/-- the observations -/
def hmData (data : Fin (P.N + 1) → Fin P.D → ℝ) : (hmNet P).Moments
  | .y => fun i => gaussianFixed (data i)
  | .a0 => fun _ => 0
  | .A => fun _ => 0
  | .z => fun _ => 0
  | .mu => fun _ => 0
  | .lam => fun _ => 0

theorem hm_closed : MaskClosed (hmNet P) := by
  intro n q hm u v h
  funext k
  change HM at n
  cases n
  · rfl
  · rfl
  · have e1 : u HM.a0 () = v HM.a0 () := h HM.a0 () hm
    have e2 : u HM.A = v HM.A := funext fun c => h HM.A c hm
    show hmSlot P .z k u q = hmSlot P .z k v q
    simp only [hmSlot, e1, e2]
  · rfl
  · rfl
  · have e1 : u HM.z () = v HM.z () := h HM.z () (decide_eq_true ⟨q, hm⟩)
    have e2 : u HM.mu = v HM.mu := funext fun c => h HM.mu c (decide_eq_true ⟨q, hm⟩)
    have e3 : u HM.lam = v HM.lam := funext fun c => h HM.lam c (decide_eq_true ⟨q, hm⟩)
    show hmSlot P .y k u q = hmSlot P .y k v q
    simp only [hmSlot, e1, e2, e3]

/-- **C90, hidden Markov model** -/
theorem C90_hidden_markov (data : Fin (P.N + 1) → Fin P.D → ℝ) (hP : HMValid P) (s : (hmNet P).State) (hs : HMState P data s)
    (hf : ∀ i, P.mask i = true → s.f HM.y i = gaussianF P.D) (ns : List HM) :
    ENNReal.ofReal (Real.exp ((hmNet P).bound (ns.foldl (fun s n => (hmNet P).update n s) s)))
      ≤ evidence (hmNet P) (hmSampled P hP.1 hP.2.1) (hmData P data) fun _ _ => gaussianF P.D := by
  have h := (C23_hidden_markov P data hP s hs ns).2
  refine (C90_lower_bound_subspace (hm_sound P hP.1 hP.2.1) (hmSub P) (fun n => ?_) (hmSampled P hP.1 hP.2.1) (fun _ => rfl) _ _ _
    (holdsData_self _) h.1 (fun n x => ?_) (hm_moments P data _ h)).trans (le_of_eq ?_)
  · change HM at n
    cases n <;> rfl
  · change HM at n
    cases n
    case lam => exact wishartFixed_symmetric (ι := Fin P.D) x
    all_goals exact Set.mem_univ _
  refine evidence_congr (hm_closed P) _ _ _ _ _ (fun n q hm ho => ?_) fun n q hm ho => ?_
  all_goals
    change HM at n
    cases n
    case y => first | exact h.2 q hm | exact (congrFun (congrFun (updates_f s ns) _) q).trans (hf q hm)
    all_goals exact Bool.noConfusion (show false = true from ho)

end

/-! ### a conjugate model: the bound is exact -/

noncomputable def gpSampled (b : Fin 2 → ℝ) : ∀ n, Sampled ((gpNet b).fam n) (gpDom n)
  | .lam => gammaSampled
  | .x => poissonSampled

theorem gp_exact (phi : Fin 2 → ℝ) :
    ENNReal.ofReal (Real.exp ((gpNet 0).bound ((gpNet 0).update GP.lam (gpState 0 phi))))
      = evidence (gpNet 0) (gpSampled 0) (gpState 0 phi).u (gpState 0 phi).f := by
  refine C90_exact (gp_sound 0) (gpSampled 0) (fun _ => rfl) _ _ _ (holdsData_self _) GP.lam (fun _ => rfl) (fun n hn q => ?_)
    (fun q _ => ?_) (fun _ _ => rfl)
  · change GP at n
    cases n
    · exact absurd rfl hn
    · rfl
  · have hq : q = () := rfl
    subst hq
    rw [gp_newPhi]
    change (![-2 + 0, 1 + 0] : Fin 2 → ℝ) 0 < 0 ∧ 0 < (![-2 + 0, 1 + 0] : Fin 2 → ℝ) 1
    norm_num

/-- the only latent variable -/
instance gpLatent (b : Fin 2 → ℝ) : Unique (Latent (gpNet b)) where
  default := ⟨⟨GP.lam, ()⟩, rfl⟩
  uniq e := by
    obtain ⟨⟨n, q⟩, h⟩ := e
    change GP at n
    cases n
    · rfl
    · exact absurd h (by simp [gpNet])

/-- The probability of the count zero, with the rate integrated out -/
theorem gp_evidence (phi : Fin 2 → ℝ) :
    evidence (gpNet 0) (gpSampled 0) (gpState 0 phi).u (gpState 0 phi).f
      = ∫⁻ lam in Ioi (0 : ℝ), ENNReal.ofReal (gammaPdf 1 1 lam * Real.exp (-lam)) := by
  refine (evidence_one (gpSampled 0) _ _ (gpLatent 0) (fun lam : ℝ =>
    (gammaPhi (gammaPriorFixed 1) (gammaFixed 1) ⬝ᵥ gammaFixed lam + gammaCgfP (gammaPriorFixed 1) (gammaFixed 1) + gammaF lam)
          + (poissonPhi (gammaFixed lam) ⬝ᵥ poissonFixed 0 + poissonCgfP (gammaFixed lam) + poissonF 0)) fun z => ?_).trans ?_
  · have hN : ∀ g : GP → ℝ, ∑ n, g n = g .lam + g .x := by
      intro g
      rw [show (Finset.univ : Finset GP) = {.lam, .x} from rfl, Finset.sum_insert (by decide), Finset.sum_singleton]
    unfold logJoint
    refine (hN _).trans ?_
    refine congrArg₂ (· + ·) ?_ ?_
    · exact Fintype.sum_unique (ι := Unit) _
    · exact Fintype.sum_unique (ι := Unit) _
  · have key : ∀ lam : ℝ, 0 < lam → ENNReal.ofReal (Real.exp (
        (gammaPhi (gammaPriorFixed 1) (gammaFixed 1) ⬝ᵥ gammaFixed lam + gammaCgfP (gammaPriorFixed 1) (gammaFixed 1) + gammaF lam)
          + (poissonPhi (gammaFixed lam) ⬝ᵥ poissonFixed 0 + poissonCgfP (gammaFixed lam) + poissonF 0)))
        = ENNReal.ofReal (gammaPdf 1 1 lam * Real.exp (-lam)) := by
      intro lam hl
      have h := C21_gamma 1 1 lam one_pos one_pos hl
      rw [logpdf_eq] at h
      have hG : 0 < gammaPdf 1 1 lam := by
        have := Real.Gamma_pos_of_pos one_pos
        unfold gammaPdf
        positivity
      have h2 : poissonPhi (gammaFixed lam) ⬝ᵥ poissonFixed 0 + poissonCgfP (gammaFixed lam) + poissonF 0 = -lam := by
        simp [poissonPhi, poissonFixed, poissonCgfP, poissonF, gammaFixed, gammaln]
      rw [h, h2, Real.exp_add, Real.exp_log hG]
    exact setLIntegral_congr_fun (measurableSet_Ioi (a := (0 : ℝ))) fun lam hl => key lam hl

/-- **C90, gamma and Poisson** With an observed count of zero and the prior `Gamma(1, 1)`: whatever the distribution of the rate
was, after its update the bound is the logarithm of the probability of the count. -/
theorem C90_gamma_poisson (phi : Fin 2 → ℝ) :
    ENNReal.ofReal (Real.exp ((gpNet 0).bound ((gpNet 0).update GP.lam (gpState 0 phi))))
      = ∫⁻ lam in Ioi (0 : ℝ), ENNReal.ofReal (gammaPdf 1 1 lam * Real.exp (-lam)) :=
  (gp_exact phi).trans (gp_evidence phi)

/-! ### examples -/

/-- three observations, the distributions initialised to `N(0, 1)` and `Gamma(1, 1)` -/
noncomputable example : ∃ s : (ngNet ⟨3, 0, 1, 1, 1⟩).State,
    ENNReal.ofReal (Real.exp ((ngNet ⟨3, 0, 1, 1, 1⟩).bound
        ((ngNet ⟨3, 0, 1, 1, 1⟩).update NG.tau ((ngNet ⟨3, 0, 1, 1, 1⟩).update NG.mu s))))
      ≤ ∫⁻ mu : ℝ, ∫⁻ tau in Ioi (0 : ℝ), ENNReal.ofReal
        (normalPdf 0 1 mu * gammaPdf 1 1 tau * ∏ p : Fin 3, normalPdf mu tau ((![1, 2, 4] : Fin 3 → ℝ) p)) := by
  have hs : NGState ⟨3, 0, 1, 1, 1⟩ ![1, 2, 4] ⟨fun n => match n with
      | .mu => fun _ => (![0, -1 / 2] : Fin 2 → ℝ)
      | .tau => fun _ => (![-1, 1] : Fin 2 → ℝ)
      | .y => fun _ => (![0, 0] : Fin 2 → ℝ),
    fun n => match n with
      | .mu => fun _ => ardMoments0 ![0, -1 / 2]
      | .tau => fun _ => gammaMoments ![-1, 1]
      | .y => fun p => (![(![1, 2, 4] : Fin 3 → ℝ) p, (![1, 2, 4] : Fin 3 → ℝ) p * (![1, 2, 4] : Fin 3 → ℝ) p] : Fin 2 → ℝ),
    fun n => match n with
      | .mu => fun _ => ardCgf0 ![0, -1 / 2]
      | .tau => fun _ => gammaCgf ![-1, 1]
      | .y => fun _ => 0,
    fun _ _ => ardF 1⟩ := by
    refine ⟨?_, fun p => rfl⟩
    intro n q ho
    change NG at n
    cases n
    · refine ⟨?_, rfl, rfl⟩
      change (![0, -1 / 2] : Fin 2 → ℝ) 1 < 0
      norm_num
    · refine ⟨?_, rfl, rfl⟩
      change (![-1, 1] : Fin 2 → ℝ) 0 < 0 ∧ 0 < (![-1, 1] : Fin 2 → ℝ) 1
      norm_num
    · exact absurd ho (by simp [ngNet])
  exact ⟨_, C90_normal_model ⟨3, 0, 1, 1, 1⟩ ![1, 2, 4] one_pos one_pos one_pos _ hs (fun _ => rfl) [NG.mu, NG.tau]⟩

/-- the bound after two updates, with data of which one element is missing -/
example : ENNReal.ofReal (Real.exp ((faNet exFA).bound ((faNet exFA).update FA.tau ((faNet exFA).update FA.x
      { faInit exFA (fun i j => i + j) (fun _ _ => 1) (fun _ _ => 0) with f := fun _ _ => ardF 1 }))))
    ≤ evidence (faNet exFA) (faSampled exFA) (faData exFA fun i j => i + j) fun _ _ => ardF 1 :=
  C90_factor_model exFA (fun i j => i + j) exFA_valid
    { faInit exFA (fun i j => i + j) (fun _ _ => 1) (fun _ _ => 0) with f := fun _ _ => ardF 1 }
    (faInit_state exFA (fun i j => i + j) (fun _ _ => 1) fun _ _ => 0) (fun _ _ _ => rfl) [FA.x, FA.tau]

example : ENNReal.ofReal (Real.exp ((ssNet exSS).bound ((ssNet exSS).update SS.a ((ssNet exSS).update SS.x
      { ssInit exSS (fun i j => i + j) (fun _ _ => 1) (fun _ _ => 0) (fun _ _ => 1) with f := fun _ _ => ardF 1 }))))
    ≤ evidence (ssNet exSS) (ssSampled exSS) (ssData exSS fun i j => i + j) fun _ _ => ardF 1 :=
  C90_state_space exSS (fun i j => i + j) exSS_valid
    { ssInit exSS (fun i j => i + j) (fun _ _ => 1) (fun _ _ => 0) (fun _ _ => 1) with f := fun _ _ => ardF 1 }
    (ssInit_state exSS (fun i j => i + j) (fun _ _ => 1) (fun _ _ => 0) fun _ _ => 1) (fun _ _ _ => rfl) [SS.x, SS.a]

example : ENNReal.ofReal (Real.exp ((gmNet exGM).bound ((gmNet exGM).update GM.lam ((gmNet exGM).update GM.mu
      { gmInit exGM (fun i d => i + d) (fun i c => i * c) (fun c _ => c) with f := fun _ _ => gaussianF exGM.D }))))
    ≤ evidence (gmNet exGM) (gmSampled exGM exGM_valid.1) (gmData exGM fun i d => i + d) fun _ _ => gaussianF exGM.D :=
  C90_gaussian_mixture exGM (fun i d => i + d) exGM_valid
    { gmInit exGM (fun i d => i + d) (fun i c => i * c) (fun c _ => c) with f := fun _ _ => gaussianF exGM.D } (gmInit_state exGM _ _ _) (fun _ _ => rfl) [GM.mu, GM.lam]

example : ENNReal.ofReal (Real.exp ((hmNet exHM).bound ((hmNet exHM).update HM.A ((hmNet exHM).update HM.z
      { hmInit exHM (fun i d => i + d) (fun _ => 0) (fun c _ => c) with f := fun _ _ => gaussianF exHM.D }))))
    ≤ evidence (hmNet exHM) (hmSampled exHM exHM_valid.1 exHM_valid.2.1) (hmData exHM fun i d => i + d)
      fun _ _ => gaussianF exHM.D :=
  C90_hidden_markov exHM (fun i d => i + d) exHM_valid
    { hmInit exHM (fun i d => i + d) (fun _ => 0) (fun c _ => c) with f := fun _ _ => gaussianF exHM.D } (hmInit_state exHM _ _ _) (fun _ _ => rfl) [HM.z, HM.A]

end Verif
