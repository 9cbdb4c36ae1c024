import Verif.Props.NormalModel
import Mathlib.NumberTheory.Harmonic.GammaDeriv

/-!
# C23: the bias of the natural parameters

`_update_phi_from_parents` adds `_phi_bias` to the parameters from the parents, `lower_bound_contribution` does not
("TODO: Should the bias be added here or not?", `expfamily.py` line 416).  So with a bias an update can decrease the
bound.  What never decreases is the bound with the terms of the bias added.
-/

namespace Verif
open Spec Net

/-- The lower bound with the terms of the bias. -/
noncomputable def Spec.biasedBound (G : Net) (s : G.State) : ℝ :=
  G.bound s + ∑ n, ∑ q, if G.mask n q then G.bias n q ⬝ᵥ s.u n q else 0

theorem elementBound_bias_le {G : Net} {dom} (h : NetSound G dom) (n : G.N) (s : G.State) (q : G.plate n)
    (phi : (G.fam n).I → ℝ) (hphi : phi ∈ dom n) (hnew : G.newPhi n s q ∈ dom n) :
    elementBound n s q phi + G.bias n q ⬝ᵥ (G.fam n).mom phi
      ≤ elementBound n s q (G.newPhi n s q) + G.bias n q ⬝ᵥ (G.fam n).mom (G.newPhi n s q) := by
  have ha := h.ann n
  have e : target n s q + G.bias n q = (1 / G.ann n) • G.newPhi n s q := by
    funext j
    simp only [target, newPhi, Pi.add_apply, Pi.smul_apply, smul_eq_mul]
    field_simp
    ring
  have ht := (h.fam n).tangent phi hphi _ hnew
  unfold Tangent at ht
  rw [dotProduct_sub] at ht
  unfold elementBound
  have c : ∀ x : (G.fam n).I → ℝ, ∀ r : ℝ,
      target n s q ⬝ᵥ x - r + G.bias n q ⬝ᵥ x = (1 / G.ann n) * (G.newPhi n s q ⬝ᵥ x) - r := by
    intro x r
    rw [← smul_eq_mul, ← smul_dotProduct, ← e, add_dotProduct]
    ring
  rw [c, c, ← mul_sub, ← mul_sub]
  refine mul_le_mul_of_nonneg_left ?_ (by positivity)
  rw [dotProduct_comm _ phi, dotProduct_comm _ (G.newPhi n s q)] at ht
  linarith

/-- **C23** with a bias: the bound with the terms of the bias never decreases. -/
theorem C23_biased_update (G : Net) (dom) (h : NetSound G dom) (n : G.N) (s : G.State)
    (hs : Consistent G dom n s) (hnew : ∀ q, G.observed n q = false → G.newPhi n s q ∈ dom n) :
    biasedBound G s ≤ biasedBound G (G.update n s) := by
  obtain ⟨C, hC⟩ := bound_setPhi h n s
  have e1 : biasedBound G s = biasedBound G (G.setPhi n (s.phi n) s) := by rw [setPhi_self G dom n s hs]
  rw [e1]
  have split : ∀ phi, ∑ m, ∑ q, (if G.mask m q then G.bias m q ⬝ᵥ (G.setPhi n phi s).u m q else 0)
      = ∑ m ∈ Finset.univ.erase n, ∑ q, (if G.mask m q then G.bias m q ⬝ᵥ s.u m q else 0)
        + ∑ q, (if G.mask n q then G.bias n q ⬝ᵥ (if !G.observed n q then (G.fam n).mom (phi q) else s.u n q) else 0) := by
    intro phi
    rw [← Finset.sum_erase_add _ _ (Finset.mem_univ n)]
    congr 1
    · refine Finset.sum_congr rfl fun m hm => ?_
      have hm' : m ≠ n := Finset.ne_of_mem_erase hm
      have : (G.setPhi n phi s).u m = s.u m := by simp [setPhi, hm']
      rw [this]
    · refine Finset.sum_congr rfl fun q _ => ?_
      have : (G.setPhi n phi s).u n q = if !G.observed n q then (G.fam n).mom (phi q) else s.u n q := by simp [setPhi]
      rw [this]
  unfold biasedBound update
  rw [split, split, hC, hC]
  have key : ∀ q, (if G.mask n q && !G.observed n q then elementBound n s q (s.phi n q) else 0)
        + (if G.mask n q then G.bias n q ⬝ᵥ (if !G.observed n q then (G.fam n).mom (s.phi n q) else s.u n q) else 0)
      ≤ (if G.mask n q && !G.observed n q then elementBound n s q (G.newPhi n s q) else 0)
        + (if G.mask n q then G.bias n q ⬝ᵥ (if !G.observed n q then (G.fam n).mom (G.newPhi n s q) else s.u n q)
            else 0) := by
    intro q
    cases ho : G.observed n q
    · cases hm : G.mask n q
      · simp
      · simp only [Bool.not_false, Bool.and_true, if_true]
        exact elementBound_bias_le h n s q _ (hs q ho).1 (hnew q ho)
    · simp
  have hsum := Finset.sum_le_sum fun q (_ : q ∈ (Finset.univ : Finset (G.plate n))) => key q
  rw [Finset.sum_add_distrib, Finset.sum_add_distrib] at hsum
  linarith

/-! ### a count with a gamma rate -/

/-- the rate and the observed count -/
inductive GP
  | lam
  | x
  deriving DecidableEq

instance : Fintype GP := ⟨{.lam, .x}, by intro x; cases x <;> decide⟩

noncomputable def gpFam : GP → Family
  | .lam => gammaFamily
  | .x => poissonFamily

abbrev GPMoments := (n : GP) → Unit → (gpFam n).I → ℝ

noncomputable def gpSlot : (c : GP) → (k : (gpFam c).K) → GPMoments → Unit → (gpFam c).P k → ℝ
  | .lam => fun k _ _ => if (show Fin 2 from k) = 0 then gammaPriorFixed 1 else gammaFixed 1
  | .x => fun _ u _ => u .lam ()

noncomputable def gpBack : (c : GP) → (k : (gpFam c).K) → (n : GP) → GPMoments → (Unit → (gpFam c).P k → ℝ) →
    Unit → (gpFam n).I → ℝ
  | .x => fun _ n _ m => match n with
    | .lam => m
    | .x => fun _ _ => 0
  | .lam => fun _ _ _ _ _ _ => 0

noncomputable def gpBias (b : Fin 2 → ℝ) : (n : GP) → Unit → (gpFam n).I → ℝ
  | .lam => fun _ => b
  | .x => fun _ _ => 0

/-- `lam = Gamma(1, 1, phi_bias=b)`, `x = Poisson(lam)`, `x.observe(0)` -/
noncomputable def gpNet (b : Fin 2 → ℝ) : Net where
  N := GP
  fam := gpFam
  plate := fun _ => Unit
  ann := fun _ => 1
  bias := gpBias b
  observed := fun n _ => n == GP.x
  mask := fun _ _ => true
  slot := gpSlot
  back := gpBack

def gpDom : (n : GP) → Set ((gpFam n).I → ℝ)
  | .lam => {phi : Fin 2 → ℝ | phi 0 < 0 ∧ 0 < phi 1}
  | .x => Set.univ

theorem gp_sound (b : Fin 2 → ℝ) : NetSound (gpNet b) gpDom where
  fam := by
    intro n
    change GP at n
    cases n
    · exact C23_gamma_sound
    · exact C23_poisson_sound
  ann := fun _ => one_pos
  own := by
    intro n k u v
    change GP at n
    cases n <;> rfl
  one := by
    intro c n k k' hk
    change GP at c
    cases c
    · exact Or.inl fun _ _ => rfl
    · exact absurd (Subsingleton.elim (α := Unit) k k') hk
  adjoint := by
    intro c k n u m
    change GP at c n
    cases c
    · exact adjoint_zero (gpNet b) _ _ _ _ _ (fun _ => rfl) rfl
    · cases n
      · exact ⟨0, fun v => (add_zero _).symm⟩
      · exact adjoint_zero (gpNet b) _ _ _ _ _ (fun _ => rfl) rfl
  mask := fun _ _ _ _ _ _ q hq => absurd hq (by simp [gpNet])

/-- the count is zero; the rate has the distribution with the parameters `phi` -/
noncomputable def gpState (b phi : Fin 2 → ℝ) : (gpNet b).State where
  phi := fun n => match n with
    | .lam => fun _ => phi
    | .x => fun _ => (![0] : Fin 1 → ℝ)
  u := fun n => match n with
    | .lam => fun _ => gammaMoments phi
    | .x => fun _ => poissonFixed 0
  g := fun n => match n with
    | .lam => fun _ => gammaCgf phi
    | .x => fun _ => 0
  f := fun _ _ => poissonF 0

theorem gp_sum (f : GP → ℝ) (h1 : f .lam = 0) : ∑ c, f c = f .x :=
  Finset.sum_eq_single GP.x (fun b _ hb => by cases b <;> first | exact h1 | exact absurd rfl hb) (by simp)

theorem gp_children (b phi : Fin 2 → ℝ) :
    (gpNet b).fromChildren GP.lam (gpState b phi).u () = (![-1, 0] : Fin 2 → ℝ) := by
  have e : (gpNet b).fromChildren GP.lam (gpState b phi).u () = (poissonMsg (poissonFixed 0) : Fin 2 → ℝ) := by
    funext j
    have e1 : (gpNet b).fromChildren GP.lam (gpState b phi).u () j
      = ∑ c : GP, ∑ k, (gpNet b).back c k GP.lam (gpState b phi).u ((gpNet b).message c k (gpState b phi).u) () j := rfl
    rw [e1, gp_sum _ (Finset.sum_eq_zero fun _ _ => rfl)]
    exact Fintype.sum_unique (ι := Unit) _
  refine e.trans ?_
  have : (poissonMsg (poissonFixed 0) : Fin 2 → ℝ) = ![-1, 0] := by simp [poissonMsg, poissonFixed]
  exact this

theorem gp_prior (b phi : Fin 2 → ℝ) :
    ((gpNet b).fam GP.lam).phiP ((gpNet b).parents GP.lam (gpState b phi).u ()) = (![-1, 1] : Fin 2 → ℝ) := by
  have e : ((gpNet b).fam GP.lam).phiP ((gpNet b).parents GP.lam (gpState b phi).u ())
      = gammaPhi (gammaPriorFixed 1) (gammaFixed 1) := rfl
  have : (gammaPhi (gammaPriorFixed 1) (gammaFixed 1) : Fin 2 → ℝ) = ![-1, 1] := by
    simp [gammaPhi, gammaPriorFixed, gammaFixed]
  exact e.trans this

theorem gp_target (b phi : Fin 2 → ℝ) : target (G := gpNet b) GP.lam (gpState b phi) () = (![-2, 1] : Fin 2 → ℝ) := by
  have e : target (G := gpNet b) GP.lam (gpState b phi) () = (![-1, 1] : Fin 2 → ℝ) + (![-1, 0] : Fin 2 → ℝ) :=
    congrArg₂ (· + ·) (gp_prior b phi) (gp_children b phi)
  refine e.trans ?_
  funext j
  fin_cases j <;> (simp; try norm_num)

theorem gp_newPhi (b phi : Fin 2 → ℝ) :
    (gpNet b).newPhi GP.lam (gpState b phi) () = (![-2 + b 0, 1 + b 1] : Fin 2 → ℝ) := by
  funext j
  have e : (gpNet b).newPhi GP.lam (gpState b phi) () j
      = 1 * (((gpNet b).fam GP.lam).phiP ((gpNet b).parents GP.lam (gpState b phi).u ()) j + (b : Fin 2 → ℝ) j
        + (gpNet b).fromChildren GP.lam (gpState b phi).u () j) := rfl
  rw [e, gp_prior, gp_children]
  change Fin 2 at j
  fin_cases j
  · change (1 : ℝ) * (-1 + b 0 + -1) = -2 + b 0
    ring
  · change (1 : ℝ) * (1 + b 1 + 0) = 1 + b 1
    ring

theorem digamma_two : 0 < digamma 2 := by
  have hd : digamma 2 = deriv Real.Gamma 2 / Real.Gamma 2 := by
    have h := Real.differentiableAt_Gamma (s := 2) (fun m => by
      have : (0 : ℝ) ≤ m := Nat.cast_nonneg m
      intro h
      linarith)
    exact (h.hasDerivAt.log (Real.Gamma_pos_of_pos two_pos).ne').deriv
  have h1 := Real.deriv_Gamma_nat 1
  have hG : Real.Gamma 2 = 1 := Real.Gamma_two
  rw [hd, hG, div_one, show (2 : ℝ) = ((1 : ℕ) : ℝ) + 1 by norm_num, h1]
  have := Real.eulerMascheroniConstant_lt_two_thirds
  simp only [Nat.factorial_one, Nat.cast_one, harmonic, Finset.range_one, Finset.sum_singleton]
  norm_num
  linarith

/-- **C23 fails with a bias.**  The rate has the best distribution `Gamma(1, 2)` (which `set_parameters` can set); an
update sets it to `Gamma(2, 2)` and the lower bound decreases. -/
theorem C23_bias_refuted :
    NetSound (gpNet ![0, 1]) gpDom ∧ (∀ n, Consistent (gpNet ![0, 1]) gpDom n (gpState ![0, 1] ![-2, 1])) ∧
    (gpNet ![0, 1]).newPhi GP.lam (gpState ![0, 1] ![-2, 1]) () ∈ gpDom GP.lam ∧
    (gpNet ![0, 1]).bound ((gpNet ![0, 1]).update GP.lam (gpState ![0, 1] ![-2, 1]))
      < (gpNet ![0, 1]).bound (gpState ![0, 1] ![-2, 1]) := by
  have hcons : ∀ n, Consistent (gpNet ![0, 1]) gpDom n (gpState ![0, 1] ![-2, 1]) := by
    intro n q ho
    change GP at n
    cases n
    · refine ⟨?_, rfl, rfl⟩
      change (![-2, 1] : Fin 2 → ℝ) 0 < 0 ∧ 0 < (![-2, 1] : Fin 2 → ℝ) 1
      norm_num
    · exact absurd ho (by simp [gpNet])
  have hnew := gp_newPhi ![0, 1] ![-2, 1]
  refine ⟨gp_sound _, hcons, ?_, ?_⟩
  · rw [hnew]
    change (![-2 + (![0, 1] : Fin 2 → ℝ) 0, 1 + (![0, 1] : Fin 2 → ℝ) 1] : Fin 2 → ℝ) 0 < 0 ∧
      0 < (![-2 + (![0, 1] : Fin 2 → ℝ) 0, 1 + (![0, 1] : Fin 2 → ℝ) 1] : Fin 2 → ℝ) 1
    norm_num
  · obtain ⟨C, hC⟩ := bound_setPhi (gp_sound ![0, 1]) GP.lam (gpState ![0, 1] ![-2, 1])
    have e1 := hC ((gpState ![0, 1] ![-2, 1]).phi GP.lam)
    rw [setPhi_self (gpNet ![0, 1]) gpDom GP.lam _ (hcons GP.lam)] at e1
    have e2 := hC ((gpNet ![0, 1]).newPhi GP.lam (gpState ![0, 1] ![-2, 1]))
    have s1 : ∀ phi : Unit → Fin 2 → ℝ, (∑ q : Unit,
        if (gpNet ![0, 1]).mask GP.lam q && !(gpNet ![0, 1]).observed GP.lam q then
          elementBound (G := gpNet ![0, 1]) GP.lam (gpState ![0, 1] ![-2, 1]) q (phi q) else 0)
        = (![-2, 1] : Fin 2 → ℝ) ⬝ᵥ gammaMoments (phi ()) - 1 / 1 * (gammaCgf (phi ()) + phi () ⬝ᵥ gammaMoments (phi ())) := by
      intro phi
      have a : (∑ q : Unit,
        if (gpNet ![0, 1]).mask GP.lam q && !(gpNet ![0, 1]).observed GP.lam q then
          elementBound (G := gpNet ![0, 1]) GP.lam (gpState ![0, 1] ![-2, 1]) q (phi q) else 0)
        = elementBound (G := gpNet ![0, 1]) GP.lam (gpState ![0, 1] ![-2, 1]) () (phi ()) := Fintype.sum_unique (ι := Unit) _
      rw [a]
      have b : elementBound (G := gpNet ![0, 1]) GP.lam (gpState ![0, 1] ![-2, 1]) () (phi ())
          = target (G := gpNet ![0, 1]) GP.lam (gpState ![0, 1] ![-2, 1]) () ⬝ᵥ gammaMoments (phi ())
            - 1 / 1 * (gammaCgf (phi ()) + phi () ⬝ᵥ gammaMoments (phi ())) := rfl
      rw [b]
      congr 2
      exact gp_target _ _
    have e1' := e1.trans (congrArg (C + ·) (s1 _))
    have e2' := e2.trans (congrArg (C + ·) (s1 _))
    have p1 : (gpState ![0, 1] ![-2, 1]).phi GP.lam () = (![-2, 1] : Fin 2 → ℝ) := rfl
    have p2 : (gpNet ![0, 1]).newPhi GP.lam (gpState ![0, 1] ![-2, 1]) () = (![-2, 2] : Fin 2 → ℝ) := by
      rw [hnew]
      change (![-2 + (![0, 1] : Fin 2 → ℝ) 0, 1 + (![0, 1] : Fin 2 → ℝ) 1] : Fin 2 → ℝ) = _
      funext j
      fin_cases j <;> norm_num
    have hψ := digamma_two
    have g1 : gammaln 1 = 0 := by simp [gammaln]
    have g2 : gammaln 2 = 0 := by rw [gammaln, Real.Gamma_two, Real.log_one]
    refine lt_of_eq_of_lt e2' (lt_of_lt_of_eq ?_ e1'.symm)
    beta_reduce
    have q1 : ∀ phi : Fin 2 → ℝ, phi = ![-2, 1] → (![-2, 1] : Fin 2 → ℝ) ⬝ᵥ gammaMoments phi
        - 1 / 1 * (gammaCgf phi + phi ⬝ᵥ gammaMoments phi) = -Real.log 2 := by
      intro phi h
      subst h
      simp only [dotProduct, Fin.sum_univ_two, gammaMoments, gammaCgf, Matrix.cons_val_zero, Matrix.cons_val_one,
        Matrix.cons_val_fin_one, neg_neg, g1]
      ring
    have q2 : ∀ phi : Fin 2 → ℝ, phi = ![-2, 2] → (![-2, 1] : Fin 2 → ℝ) ⬝ᵥ gammaMoments phi
        - 1 / 1 * (gammaCgf phi + phi ⬝ᵥ gammaMoments phi) = -Real.log 2 - digamma 2 := by
      intro phi h
      subst h
      simp only [dotProduct, Fin.sum_univ_two, gammaMoments, gammaCgf, Matrix.cons_val_zero, Matrix.cons_val_one,
        Matrix.cons_val_fin_one, neg_neg, g2]
      ring
    have r1 := q1 _ p1
    have r2 := q2 _ p2
    refine lt_of_eq_of_lt (congrArg (C + ·) r2) (lt_of_lt_of_eq ?_ (congrArg (C + ·) r1).symm)
    linarith

end Verif
