import Verif.Props.Termination
import Verif.Props.FactorModel
import Verif.Lemmas.DigammaShape

/-!
# C91 for factor analysis

The bound is at most a number which depends on the number of observations and the prior of the noise only: the part of every
other unobserved variable is not positive, and the quadratic terms of the observations are not.
-/

namespace Verif
open Spec Filter Topology Matrix

/-- The part of an unobserved element, compared with any distribution of its family. -/
theorem contribution_le {G : Net} {dom : ∀ n, Set ((G.fam n).I → ℝ)} (h : NetSound G dom) (ha : ∀ n, G.ann n = 1) (n : G.N)
    (s : G.State) (hs : Consistent G dom n s) (q : G.plate n) (ho : G.observed n q = false) (phi : (G.fam n).I → ℝ)
    (hphi : phi ∈ dom n) :
    G.contribution n s q ≤ (G.fam n).cgfP (G.parents n s.u q) - (G.fam n).cgf phi
      + ((G.fam n).phiP (G.parents n s.u q) - phi) ⬝ᵥ s.u n q := by
  obtain ⟨h1, h2, h3⟩ := hs q ho
  have ht := (h.fam n).tangent _ h1 phi hphi
  unfold Tangent at ht
  rw [← h2, dotProduct_sub] at ht
  rw [Net.contribution_eq, ha n, ho, h3, sub_dotProduct, dotProduct_comm phi, dotProduct_comm (s.phi n q)]
  simp only [Bool.false_eq_true, if_false]
  linarith

/-- A gamma variable with its prior -/
theorem gamma_prior_cgf (a b : ℝ) :
    gammaCgfP (gammaPriorFixed a) (gammaFixed b) = gammaCgf (gammaPhi (gammaPriorFixed a) (gammaFixed b)) := by
  simp [gammaCgfP, gammaPriorFixed, gammaFixed, gammaCgf, gammaPhi]

/-- the mean of the logarithm is at most the logarithm of the mean -/
theorem gamma_log_le (phi : Fin 2 → ℝ) (h0 : phi 0 < 0) (h1 : 0 < phi 1) :
    gammaMoments phi 1 ≤ Real.log (gammaMoments phi 0) := by
  have h := digamma_le_log (phi 1) h1
  have e : Real.log (gammaMoments phi 0) = Real.log (phi 1) - Real.log (-phi 0) := by
    rw [← Real.log_div h1.ne' (neg_pos.2 h0).ne']
    rfl
  rw [e]
  exact sub_le_sub_right h _

/-- The part of a Gaussian variable with uncertain precisions is not positive. -/
theorem ard_prior_cgf {ι : Type} [Fintype ι] [DecidableEq ι] (mu : ι → ℝ) (t : ι → Fin 2 → ℝ) (ht : ∀ i, 0 < t i 0)
    (hl : ∀ i, t i 1 ≤ Real.log (t i 0)) :
    ((-2 : ℝ) • g1 (ardPhi fun i : ι × Fin 4 => wrap0 (fixed0 (mu i.1)) (t i.1) i.2)).PosDef ∧
    ardCgfP (fun i : ι × Fin 4 => wrap0 (fixed0 (mu i.1)) (t i.1) i.2)
      ≤ gaussianCgf (ardPhi fun i : ι × Fin 4 => wrap0 (fixed0 (mu i.1)) (t i.1) i.2) := by
  have e : (-2 : ℝ) • g1 (ardPhi fun i : ι × Fin 4 => wrap0 (fixed0 (mu i.1)) (t i.1) i.2) = diagonal fun i => t i 0 := by
    ext i j
    change (-2 : ℝ) * (diagonal (fun i => -0.5 * (1 * t i 0)) : Matrix ι ι ℝ) i j = _
    rcases eq_or_ne i j with rfl | hne
    · rw [diagonal_apply_eq, diagonal_apply_eq]; ring
    · rw [diagonal_apply_ne _ hne, diagonal_apply_ne _ hne, mul_zero]
  refine ⟨by rw [e]; exact PosDef.diagonal ht, ?_⟩
  have e0 : g0 (ardPhi fun i : ι × Fin 4 => wrap0 (fixed0 (mu i.1)) (t i.1) i.2) = fun i => mu i * t i 0 := rfl
  have hinv : (diagonal fun i => t i 0)⁻¹ = diagonal fun i => (t i 0)⁻¹ := by
    refine inv_eq_right_inv ?_
    rw [diagonal_mul_diagonal, ← diagonal_one]
    exact congrArg diagonal (funext fun i => mul_inv_cancel₀ (ht i).ne')
  unfold gaussianCgf
  rw [e, e0, hinv, det_diagonal, Real.log_prod fun i _ => (ht i).ne']
  have hm : (diagonal fun i => (t i 0)⁻¹).mulVec (fun i => mu i * t i 0) = mu := by
    funext i
    rw [mulVec_diagonal]
    have := (ht i).ne'
    field_simp
  simp only [hm]
  have e1 : ardCgfP (fun i : ι × Fin 4 => wrap0 (fixed0 (mu i.1)) (t i.1) i.2)
      = -0.5 * ∑ i, mu i * mu i * t i 0 + 0.5 * ∑ i, (0 + t i 1) := rfl
  have e2 : (mu ⬝ᵥ fun i => mu i * t i 0) = ∑ i, mu i * mu i * t i 0 :=
    Finset.sum_congr rfl fun i _ => (mul_assoc _ _ _).symm
  have h3 : ∑ i, (0 + t i 1) ≤ ∑ i, Real.log (t i 0) := Finset.sum_le_sum fun i _ => by rw [zero_add]; exact hl i
  rw [e1, e2]
  linarith

/-- Compared with its prior, given the moments of the parents -/
theorem contribution_prior_le {G : Net} {dom : ∀ n, Set ((G.fam n).I → ℝ)} (h : NetSound G dom) (ha : ∀ n, G.ann n = 1) (n : G.N)
    (s : G.State) (hs : Consistent G dom n s) (q : G.plate n) (ho : G.observed n q = false)
    (hphi : (G.fam n).phiP (G.parents n s.u q) ∈ dom n)
    (hp : (G.fam n).cgfP (G.parents n s.u q) ≤ (G.fam n).cgf ((G.fam n).phiP (G.parents n s.u q))) :
    G.contribution n s q ≤ 0 := by
  refine (contribution_le h ha n s hs q ho _ hphi).trans ?_
  rw [sub_self, zero_dotProduct, add_zero]
  exact sub_nonpos.2 hp

/-- The part of a noise level, compared with its distribution given observations without error -/
theorem gamma_tilt (a b k : ℝ) (u : Fin 2 → ℝ) :
    gammaCgfP (gammaPriorFixed a) (gammaFixed b) - gammaCgf ![-b, a + k] + (gammaPhi (gammaPriorFixed a) (gammaFixed b) - ![-b, a + k]) ⬝ᵥ u
      = gammaCgf ![-b, a] - gammaCgf ![-b, a + k] - k * u 1 := by
  rw [gamma_prior_cgf]
  have e : gammaPhi (gammaPriorFixed a) (gammaFixed b) = ![-b, a] := by
    funext i
    fin_cases i <;> simp [gammaPhi, gammaPriorFixed, gammaFixed]
  rw [e]
  simp [dotProduct, Fin.sum_univ_two]
  ring

/-- The part of an observation of a variable with the moments `d` and the noise `t` -/
theorem observation_le (y : ℝ) (d t : Fin 2 → ℝ) (hd : d 0 * d 0 ≤ d 1) (ht : 0 ≤ t 0) :
    ard0Phi (wrap0 d t) ⬝ᵥ (![y, y * y] : Fin 2 → ℝ) + ard0CgfP (wrap0 d t) ≤ 1 / 2 * t 1 := by
  have sq := square_msg y (d 0) 0 (d 1 - d 0 * d 0) (le_refl 0) (by linarith)
  have sq' := mul_nonpos_of_nonneg_of_nonpos ht sq
  simp only [dotProduct, Fin.sum_univ_two, ard0Phi, ard0CgfP, wrap0, Matrix.cons_val]
  linarith

section
variable (P : FAParams)

/-- the number of observations -/
noncomputable def faCount : ℝ := ∑ q : Fin P.M × Fin P.N, if P.mask q.1 q.2 then (1 : ℝ) else 0

/-- the upper bound of the lower bound -/
noncomputable def Spec.faBound : ℝ :=
  faCount P * ardF 1 + (gammaCgf ![-P.bt, P.at'] - gammaCgf ![-P.bt, P.at' + faCount P / 2])

theorem fa_bound_le (data : Fin P.M → Fin P.N → ℝ) (hP : FAValid P) (s : (faNet P).State) (hs : FAState P data s)
    (hf : ∀ i j, P.mask i j = true → s.f FA.y (i, j) = ardF 1) : (faNet P).bound s ≤ faBound P := by
  obtain ⟨hc, hy⟩ := hs
  obtain ⟨ha0, hb0, hax, hat, hbt⟩ := hP
  have hK : 0 ≤ faCount P := Finset.sum_nonneg fun q _ => by split <;> norm_num
  have hal : ∀ d : Fin P.D, (faNet P).contribution FA.alpha s d ≤ 0 := fun d =>
    contribution_prior_le (fa_sound P) (fun _ => rfl) FA.alpha s (hc FA.alpha) d rfl
      ⟨neg_lt_zero.2 (hb0 d), by change 0 < 1 * P.a0 d; rw [one_mul]; exact ha0 d⟩ (gamma_prior_cgf (P.a0 d) (P.b0 d)).le
  have hw : ∀ i : Fin P.M, (faNet P).contribution FA.w s i ≤ 0 := by
    intro i
    have ha : ∀ d : Fin P.D, 0 < s.u FA.alpha d (0 : Fin 2) ∧
        s.u FA.alpha d (1 : Fin 2) ≤ Real.log (s.u FA.alpha d (0 : Fin 2)) := by
      intro d
      obtain ⟨da, ea, -⟩ := hc FA.alpha d rfl
      have ea' : s.u FA.alpha d = gammaMoments (s.phi FA.alpha d) := ea
      rw [ea']
      exact ⟨div_pos da.2 (neg_pos.2 da.1), gamma_log_le _ da.1 da.2⟩
    obtain ⟨p1, p2⟩ := ard_prior_cgf (P.muW i) (fun d => s.u FA.alpha d) (fun d => (ha d).1) fun d => (ha d).2
    exact contribution_prior_le (fa_sound P) (fun _ => rfl) FA.w s (hc FA.w) i rfl p1 p2
  have hx : ∀ j : Fin P.N, (faNet P).contribution FA.x s j ≤ 0 := by
    intro i
    obtain ⟨p1, p2⟩ := ard_prior_cgf (P.muX i) (fun d => gammaFixed (P.alphaX i d)) (fun d => hax i d) fun d => le_refl _
    exact contribution_prior_le (fa_sound P) (fun _ => rfl) FA.x s (hc FA.x) i rfl p1 p2
  have htau : (faNet P).contribution FA.tau s () ≤
      gammaCgf ![-P.bt, P.at'] - gammaCgf ![-P.bt, P.at' + faCount P / 2] - faCount P / 2 * s.u FA.tau () (1 : Fin 2) :=
    (contribution_le (fa_sound P) (fun _ => rfl) FA.tau s (hc FA.tau) () rfl
      (![-P.bt, P.at' + faCount P / 2] : Fin 2 → ℝ)
      ⟨neg_lt_zero.2 hbt, by change 0 < P.at' + faCount P / 2; positivity⟩).trans_eq
      (gamma_tilt P.at' P.bt (faCount P / 2) (s.u FA.tau ()))
  have hyy : ∀ q : Fin P.M × Fin P.N, P.mask q.1 q.2 = true →
      (faNet P).contribution FA.y s q ≤ ardF 1 + 1 / 2 * s.u FA.tau () (1 : Fin 2) := by
    intro q hm
    have h := observation_le (data q.1 q.2) _ (s.u FA.tau ())
      (dotMoments_variance (fa_second_w P s hc q.1) (fa_second_x P s hc q.2)) (fa_tau_pos P s hc).le
    have e : s.u FA.y q = (![data q.1 q.2, data q.1 q.2 * data q.1 q.2] : Fin 2 → ℝ) := hy q.1 q.2 hm
    have ec := Net.contribution_eq (G := faNet P) FA.y s q
    rw [show (faNet P).observed FA.y q = true from hm, if_pos rfl, show s.f FA.y q = ardF 1 from hf q.1 q.2 hm, e] at ec
    rw [ec, add_comm]
    exact add_le_add_right h _
  have hyy' : ∑ q : Fin P.M × Fin P.N, (if P.mask q.1 q.2 then (faNet P).contribution FA.y s q else 0)
      ≤ faCount P * (ardF 1 + 1 / 2 * s.u FA.tau () (1 : Fin 2)) := by
    rw [faCount, Finset.sum_mul]
    refine Finset.sum_le_sum fun q _ => ?_
    by_cases hm : P.mask q.1 q.2 = true
    · rw [if_pos hm, if_pos hm, one_mul]
      exact hyy q hm
    · rw [if_neg hm, if_neg hm, zero_mul]
  have hz : ∀ {A : Type} [Fintype A] (m : A → Bool) (c : A → ℝ), (∀ a, c a ≤ 0) → ∑ a, (if m a then c a else 0) ≤ 0 :=
    fun m c hc => Finset.sum_nonpos fun a _ => by split <;> [exact hc a; exact le_refl 0]
  have htm : (if (faNet P).mask FA.tau () = true then (faNet P).contribution FA.tau s () else 0) ≤
      gammaCgf ![-P.bt, P.at'] - gammaCgf ![-P.bt, P.at' + faCount P / 2] - faCount P / 2 * s.u FA.tau () (1 : Fin 2) := by
    by_cases hm : (faNet P).mask FA.tau () = true
    · rw [if_pos hm]
      exact htau
    · rw [if_neg hm]
      have h0 : faCount P = 0 := Finset.sum_eq_zero fun q _ => if_neg fun h => hm (decide_eq_true ⟨q.1, q.2, h⟩)
      rw [h0]
      simp
  have e : (faNet P).bound s
      = (∑ d : Fin P.D, if (faNet P).mask FA.alpha d then (faNet P).contribution FA.alpha s d else 0)
        + (∑ d : Fin P.M, if (faNet P).mask FA.w d then (faNet P).contribution FA.w s d else 0)
        + (∑ d : Fin P.N, if (faNet P).mask FA.x d then (faNet P).contribution FA.x s d else 0)
        + (if (faNet P).mask FA.tau () = true then (faNet P).contribution FA.tau s () else 0)
        + ∑ q : Fin P.M × Fin P.N, (if P.mask q.1 q.2 then (faNet P).contribution FA.y s q else 0) := by
    refine (fa_sum _).trans ?_
    refine congrArg₂ (· + ·) (congrArg₂ (· + ·) rfl ?_) rfl
    exact Fintype.sum_unique (ι := Unit) _
  have z1 := hz (fun d : Fin P.D => (faNet P).mask FA.alpha d) (fun d : Fin P.D => (faNet P).contribution FA.alpha s d) hal
  have z2 := hz (fun d : Fin P.M => (faNet P).mask FA.w d) (fun d : Fin P.M => (faNet P).contribution FA.w s d) hw
  have z3 := hz (fun d : Fin P.N => (faNet P).mask FA.x d) (fun d : Fin P.N => (faNet P).contribution FA.x s d) hx
  have h1 := add_le_add (add_le_add (add_le_add (add_le_add z1 z2) z3) htm) hyy'
  rw [e]
  refine h1.trans_eq ?_
  rw [faBound]
  ring

theorem fa_step (data : Fin P.M → Fin P.N → ℝ) (hP : FAValid P) (s : (faNet P).State) (n : FA)
    (h : FAState P data s ∧ ∀ i j, P.mask i j = true → s.f FA.y (i, j) = ardF 1) :
    (FAState P data ((faNet P).update n s) ∧ ∀ i j, P.mask i j = true → ((faNet P).update n s).f FA.y (i, j) = ardF 1) ∧
      (faNet P).bound s ≤ (faNet P).bound ((faNet P).update n s) :=
  have h' := C23_factor_model P data hP s h.1 [n]
  ⟨⟨h'.2, h.2⟩, h'.1⟩

/-- **C91, factor analysis** Whatever the data, the missing values, the hyperparameters, the current distributions, the nodes that
are updated and the (positive) tolerance: `update(repeat=None)` ends, or the bounds tend to zero. -/
theorem C91_factor_model (data : Fin P.M → Fin P.N → ℝ) (hP : FAValid P) (name : FA → String)
    (ns : List FA) (tol : Option (Option ℝ)) (s : VBState FA (faNet P).State Unit Unit (Option ℝ))
    (hr : VBReachable (netEnv (faNet P) name) s) (hall : ∀ n : FA, n ∈ s.model)
    (hauto : s.autosaveIterations = 0) (hcheck : s.ignoreBoundChecks = false)
    (t : ℝ) (ht : 0 < t) (htol : tol.getD s.tol = some t)
    (hs : FAState P data (netDecode (faNet P) s.world))
    (hf : ∀ i j, P.mask i j = true → (netDecode (faNet P) s.world).f FA.y (i, j) = ardF 1) :
    (∃ k s', updateLoop (netEnv (faNet P) name) (ns.map .node) tol k s = (.ok true, s')) ∨
      ∃ st : ℕ → VBState FA (faNet P).State Unit Unit (Option ℝ),
        (∀ k, updateLoop (netEnv (faNet P) name) (ns.map .node) tol k s = (.ok false, st k)) ∧
        Tendsto (fun k => (faNet P).bound (netDecode (faNet P) (st k).world)) atTop (𝓝 0) :=
  C91_network (faNet P) name (fun s => FAState P data s ∧ ∀ i j, P.mask i j = true → s.f FA.y (i, j) = ardF 1)
    (fun s n h => fa_step P data hP s n h) (faBound P) (fun s h => fa_bound_le P data hP s h.1 h.2) ns tol s hr hall hauto hcheck
    t ht htol ⟨hs, hf⟩

/-- **C91, factor analysis** If the prior of the noise makes the observations improbable, whatever they are (`faBound P < 0`),
`update(repeat=None)` ends. -/
theorem C91_factor_model_ends (data : Fin P.M → Fin P.N → ℝ) (hP : FAValid P) (hB : faBound P < 0) (name : FA → String)
    (ns : List FA) (tol : Option (Option ℝ)) (s : VBState FA (faNet P).State Unit Unit (Option ℝ))
    (hr : VBReachable (netEnv (faNet P) name) s) (hall : ∀ n : FA, n ∈ s.model)
    (hauto : s.autosaveIterations = 0) (hcheck : s.ignoreBoundChecks = false)
    (t : ℝ) (ht : 0 < t) (htol : tol.getD s.tol = some t)
    (hs : FAState P data (netDecode (faNet P) s.world))
    (hf : ∀ i j, P.mask i j = true → (netDecode (faNet P) s.world).f FA.y (i, j) = ardF 1) :
    ∃ k s', updateLoop (netEnv (faNet P) name) (ns.map .node) tol k s = (.ok true, s') :=
  C91_network_ends (faNet P) name (fun s => FAState P data s ∧ ∀ i j, P.mask i j = true → s.f FA.y (i, j) = ardF 1)
    (fun s n h => fa_step P data hP s n h) (faBound P) hB (fun s h => fa_bound_le P data hP s h.1 h.2) ns tol s hr hall hauto hcheck
    t ht htol ⟨hs, hf⟩

end

/-- three rows, of which the first is missing, two columns and two factors -/
def exFA4 : FAParams where
  M := 3
  N := 2
  D := 2
  a0 := fun _ => 1
  b0 := fun _ => 1
  muW := fun _ _ => 0
  muX := fun _ _ => 0
  alphaX := fun _ _ => 1
  at' := 1
  bt := 1
  mask := fun i _ => !decide (i = 0)

theorem exFA4_valid : FAValid exFA4 :=
  ⟨fun _ => one_pos, fun _ => one_pos, fun _ _ => one_pos, one_pos, one_pos⟩

theorem exFA4_bound : faBound exFA4 < 0 := by
  have hc : faCount exFA4 = 4 := by
    unfold faCount
    rw [Fintype.sum_prod_type]
    change ∑ i : Fin 3, ∑ j : Fin 2, (if (!decide (i = 0)) = true then (1 : ℝ) else 0) = 4
    simp [Fin.sum_univ_three]
    norm_num
  have hG : gammaln 3 = Real.log 2 := by
    unfold gammaln
    have : Real.Gamma 3 = 2 := by
      have h := Real.Gamma_nat_eq_factorial 2
      rw [show ((2 : ℕ) : ℝ) + 1 = 3 by norm_num] at h
      rw [h]
      norm_num [Nat.factorial]
    rw [this]
  have h1 : gammaln 1 = 0 := by simp [gammaln]
  have hp := Real.pi_gt_three
  have hl : Real.log 2 < Real.log (2 * Real.pi) := Real.log_lt_log (by norm_num) (by linarith)
  have h2 : 0 < Real.log 2 := Real.log_pos (by norm_num)
  have e : faBound exFA4 = 4 * (-1 / 2 * Real.log (2 * Real.pi)) + (0 - gammaln 1 - (0 - gammaln 3)) := by
    unfold faBound
    rw [hc]
    change 4 * (-((1 : ℕ) : ℝ) / 2 * Real.log (2 * Real.pi)) + (gammaCgf ![-1, 1] - gammaCgf ![-1, 1 + 4 / 2]) = _
    have e3 : (1 + 4 / 2 : ℝ) = 3 := by norm_num
    rw [e3]
    simp [gammaCgf]
  rw [e, hG, h1]
  linarith

/-- `Q = VB(Y, W, X, tau, alpha); Q.update(X, W, tau, repeat=None)` ends -/
example : ∃ s, vbInit (netEnv (faNet exFA4) fun _ => "") [FA.y, FA.w, FA.x, FA.tau, FA.alpha] (some 1e-5) 0
      (fun _ => ⟨{ faInit exFA4 (fun i j => i + j) (fun _ _ => 1) (fun _ _ => 0) with f := fun _ _ => ardF 1 }, (), (), some 1⟩)
      none = .ok s ∧
    ∃ k s', updateLoop (netEnv (faNet exFA4) fun _ => "") ([FA.x, FA.w, FA.tau].map .node) none k s = (.ok true, s') := by
  refine ⟨_, vbInit_eq _ _ _ _ _ _, C91_factor_model_ends exFA4 (fun i j => i + j) exFA4_valid exFA4_bound
    (fun _ => "") [FA.x, FA.w, FA.tau] none _ ⟨_, _, _, _, _, _, [], vbInit_eq _ _ _ _ _ _, rfl⟩ (fun n => ?_) rfl rfl 1e-5
    (by norm_num) rfl (faInit_state exFA4 (fun i j => i + j) (fun _ _ => 1) fun _ _ => 0) fun _ _ _ => rfl⟩
  cases n <;> decide

end Verif
