import Verif.Props.Families
import Verif.Model.FactorModel

/-!
# C23 for a complete model: the mean and the precision of normal observations

The model of the introduction of the documentation, with `D` observations and any hyperparameters:

    mu = GaussianARD(mu0, alpha0)
    tau = Gamma(a0, b0)
    y = GaussianARD(mu, tau, plates=(D,))
    y.observe(data)
-/

namespace Verif
open Spec

/-- the stochastic nodes -/
inductive NG
  | mu
  | tau
  | y
  deriving DecidableEq

instance : Fintype NG := ⟨{.mu, .tau, .y}, by intro x; cases x <;> decide⟩

noncomputable def ngFam : NG → Family
  | .mu => ard0Family
  | .tau => gammaFamily
  | .y => ard0Family

def ngPlate (D : ℕ) : NG → Type
  | .mu => Unit
  | .tau => Unit
  | .y => Fin D

instance (D : ℕ) : ∀ n, Fintype (ngPlate D n)
  | .mu => inferInstanceAs (Fintype Unit)
  | .tau => inferInstanceAs (Fintype Unit)
  | .y => inferInstanceAs (Fintype (Fin D))

structure NGParams where
  D : ℕ
  mu0 : ℝ
  alpha0 : ℝ
  a0 : ℝ
  b0 : ℝ

variable (P : NGParams)

abbrev NGMoments := (n : NG) → ngPlate P.D n → (ngFam n).I → ℝ

noncomputable def ngSlot : (c : NG) → (k : (ngFam c).K) → NGMoments P → ngPlate P.D c → (ngFam c).P k → ℝ
  | .mu => fun _ _ _ => wrap0 ![P.mu0, P.mu0 * P.mu0] (gammaFixed P.alpha0)
  | .tau => fun k _ _ => if (show Fin 2 from k) = 0 then gammaPriorFixed P.a0 else gammaFixed P.b0
  | .y => fun _ u _ => wrap0 (u .mu ()) (u .tau ())

noncomputable def ngBack : (c : NG) → (k : (ngFam c).K) → (n : NG) → NGMoments P → (ngPlate P.D c → (ngFam c).P k → ℝ) →
    ngPlate P.D n → (ngFam n).I → ℝ
  | .y => fun _ n u m => match n with
    | .mu => fun _ => ∑ p : Fin P.D, wrap0MsgX (m p) (u .tau ())
    | .tau => fun _ => ∑ p : Fin P.D, wrap0MsgT (m p) (u .mu ())
    | .y => fun _ _ => 0
  | .mu => fun _ _ _ _ _ _ => 0
  | .tau => fun _ _ _ _ _ _ => 0

/-- The network: `y` is observed. -/
noncomputable def ngNet : Net where
  N := NG
  fam := ngFam
  plate := ngPlate P.D
  ann := fun _ => 1
  bias := fun _ _ _ => 0
  observed := fun n _ => n == NG.y
  mask := fun _ _ => true
  slot := ngSlot P
  back := ngBack P

def ngDom : (n : NG) → Set ((ngFam n).I → ℝ)
  | .mu => {phi : Fin 2 → ℝ | phi 1 < 0}
  | .tau => {phi : Fin 2 → ℝ | phi 0 < 0 ∧ 0 < phi 1}
  | .y => {phi : Fin 2 → ℝ | phi 1 < 0}

theorem wrap0_adjoint_x (m : Fin 4 → ℝ) (x t : Fin 2 → ℝ) :
    m ⬝ᵥ wrap0 x t = wrap0MsgX m t ⬝ᵥ x + (m 2 * t 0 + m 3 * t 1) := by
  simp only [dotProduct, Fin.sum_univ_four, Fin.sum_univ_two, wrap0, wrap0MsgX, Matrix.cons_val]
  ring

theorem wrap0_adjoint_t (m : Fin 4 → ℝ) (x t : Fin 2 → ℝ) : m ⬝ᵥ wrap0 x t = wrap0MsgT m x ⬝ᵥ t := by
  simp only [dotProduct, Fin.sum_univ_four, Fin.sum_univ_two, wrap0, wrap0MsgT, Matrix.cons_val]
  ring

theorem ngSlot_mu (k) (u : NGMoments P) (v : Unit → Fin 2 → ℝ) (p) :
    ngSlot P .y k (Function.update u .mu v) p = wrap0 (v ()) (u .tau ()) := rfl

theorem ngSlot_tau (k) (u : NGMoments P) (v : Unit → Fin 2 → ℝ) (p) :
    ngSlot P .y k (Function.update u .tau v) p = wrap0 (u .mu ()) (v ()) := rfl

theorem ngSlot_own (n : NG) (k) (u : NGMoments P) (v) : ngSlot P n k (Function.update u n v) = ngSlot P n k u := by
  cases n <;> rfl

theorem ng_adjoint_mu {D : ℕ} (t : Fin 2 → ℝ) (m : Fin D → Fin 4 → ℝ) (v : Unit → Fin 2 → ℝ) :
    ∑ p, m p ⬝ᵥ wrap0 (v ()) t
      = ∑ q : Unit, (∑ p : Fin D, wrap0MsgX (m p) t) ⬝ᵥ v q + ∑ p, (m p 2 * t 0 + m p 3 * t 1) := by
  have e : ∑ q : Unit, (∑ p : Fin D, wrap0MsgX (m p) t) ⬝ᵥ v q = (∑ p : Fin D, wrap0MsgX (m p) t) ⬝ᵥ v () :=
    Fintype.sum_unique _
  rw [e, sum_dotProduct, ← Finset.sum_add_distrib]
  exact Finset.sum_congr rfl fun p _ => wrap0_adjoint_x (m p) (v ()) t

theorem ng_adjoint_tau {D : ℕ} (x : Fin 2 → ℝ) (m : Fin D → Fin 4 → ℝ) (v : Unit → Fin 2 → ℝ) :
    ∑ p, m p ⬝ᵥ wrap0 x (v ()) = ∑ q : Unit, (∑ p : Fin D, wrap0MsgT (m p) x) ⬝ᵥ v q + 0 := by
  have e : ∑ q : Unit, (∑ p : Fin D, wrap0MsgT (m p) x) ⬝ᵥ v q = (∑ p : Fin D, wrap0MsgT (m p) x) ⬝ᵥ v () :=
    Fintype.sum_unique _
  rw [e, sum_dotProduct, add_zero]
  exact Finset.sum_congr rfl fun p _ => wrap0_adjoint_t (m p) x (v ())

theorem adjoint_zero (G : Net) (c k n u m) (hs : ∀ v, G.slot c k (Function.update u n v) = G.slot c k u)
    (hb : G.back c k n u m = 0) :
    ∃ r, ∀ v, ∑ p, m p ⬝ᵥ G.slot c k (Function.update u n v) p = ∑ q, G.back c k n u m q ⬝ᵥ v q + r :=
  ⟨∑ p, m p ⬝ᵥ G.slot c k u p, fun v => by rw [hs, hb]; simp⟩

theorem ng_sound : NetSound (ngNet P) ngDom where
  fam := by
    intro n
    change NG at n
    cases n
    · exact C23_gaussianARD_scalar_sound
    · exact C23_gamma_sound
    · exact C23_gaussianARD_scalar_sound
  ann := fun _ => one_pos
  own := fun n k u v => ngSlot_own P n k u v
  one := by
    intro c n k k' hk
    change NG at c
    cases c
    · exact Or.inl fun _ _ => rfl
    · exact Or.inl fun _ _ => rfl
    · exact absurd (Subsingleton.elim (α := Unit) k k') hk
  adjoint := by
    intro c k n u m
    change NG at c n
    cases c
    · exact adjoint_zero (ngNet P) _ _ _ _ _ (fun _ => rfl) rfl
    · exact adjoint_zero (ngNet P) _ _ _ _ _ (fun _ => rfl) rfl
    · cases n
      · exact ⟨_, fun v => ng_adjoint_mu (u NG.tau ()) m v⟩
      · exact ⟨_, fun v => ng_adjoint_tau (u NG.mu ()) m v⟩
      · exact adjoint_zero (ngNet P) _ _ _ _ _ (fun _ => rfl) rfl
  mask := fun _ _ _ _ _ _ q hq => absurd hq (by simp [ngNet])

theorem ng_sum (f : NG → ℝ) (h1 : f .mu = 0) (h2 : f .tau = 0) : ∑ c, f c = f .y :=
  Finset.sum_eq_single NG.y (fun b _ hb => by cases b <;> first | exact h1 | exact h2 | exact absurd rfl hb) (by simp)

/-- the precision of the new distribution of `mu` -/
theorem ng_new_mu (s : (ngNet P).State) :
    (ngNet P).newPhi NG.mu s () (1 : Fin 2)
      = -0.5 * P.alpha0 + ∑ _p : Fin P.D, -0.5 * s.u NG.tau () (0 : Fin 2) := by
  have e : (ngNet P).newPhi NG.mu s () (1 : Fin 2)
      = 1 * ((ard0Phi (wrap0 ![P.mu0, P.mu0 * P.mu0] (gammaFixed P.alpha0)) 1 + 0)
        + ∑ c : NG, ∑ k, (ngNet P).back c k NG.mu s.u ((ngNet P).message c k s.u) () (1 : Fin 2)) := rfl
  rw [e, ng_sum _ (Finset.sum_eq_zero fun _ _ => rfl) (Finset.sum_eq_zero fun _ _ => rfl)]
  have e2 : ∑ k, (ngNet P).back NG.y k NG.mu s.u ((ngNet P).message NG.y k s.u) () (1 : Fin 2)
      = (∑ p : Fin P.D, wrap0MsgX (ard0Msg (s.u NG.y p)) (s.u NG.tau ())) 1 := Fintype.sum_unique (ι := Unit) _
  rw [e2, Finset.sum_apply]
  simp only [ard0Phi, wrap0, wrap0MsgX, ard0Msg, gammaFixed, Matrix.cons_val]
  ring

/-- the rate and the shape of the new distribution of `tau` -/
theorem ng_new_tau (s : (ngNet P).State) (j : Fin 2) :
    (ngNet P).newPhi NG.tau s () j
      = ![-P.b0, P.a0] j + ∑ p : Fin P.D, wrap0MsgT (ard0Msg (s.u NG.y p)) (s.u NG.mu ()) j := by
  have e : (ngNet P).newPhi NG.tau s () j
      = 1 * ((gammaPhi (gammaPriorFixed P.a0) (gammaFixed P.b0) j + 0)
        + ∑ c : NG, ∑ k, (ngNet P).back c k NG.tau s.u ((ngNet P).message c k s.u) () j) := rfl
  rw [e, ng_sum _ (Finset.sum_eq_zero fun _ _ => rfl) (Finset.sum_eq_zero fun _ _ => rfl)]
  have e2 : ∑ k, (ngNet P).back NG.y k NG.tau s.u ((ngNet P).message NG.y k s.u) () j
      = (∑ p : Fin P.D, wrap0MsgT (ard0Msg (s.u NG.y p)) (s.u NG.mu ())) j := Fintype.sum_unique (ι := Unit) _
  rw [e2, Finset.sum_apply]
  fin_cases j <;> simp [gammaPhi, gammaPriorFixed, gammaFixed]

/-- The states which the theorem is about: `y` has the moments of the data; `mu` and `tau` have some normal and some
gamma distribution, with their moments. -/
def Spec.NGState (data : Fin P.D → ℝ) (s : (ngNet P).State) : Prop :=
  (∀ n, Consistent (ngNet P) ngDom n s) ∧ ∀ p : Fin P.D, s.u NG.y p = ![data p, data p * data p]

theorem ng_valid (data : Fin P.D → ℝ) (ha : 0 < P.alpha0) (ha0 : 0 < P.a0) (hb0 : 0 < P.b0) (s : (ngNet P).State)
    (hs : NGState P data s) (n : NG) (q : ngPlate P.D n) (ho : (ngNet P).observed n q = false) :
    (ngNet P).newPhi n s q ∈ ngDom n := by
  obtain ⟨hc, hy⟩ := hs
  obtain ⟨dm, um, -⟩ := hc NG.mu () rfl
  obtain ⟨dt, ut, -⟩ := hc NG.tau () rfl
  have dm' : s.phi NG.mu () (1 : Fin 2) < 0 := dm
  have dt0 : s.phi NG.tau () (0 : Fin 2) < 0 := dt.1
  have dt1 : 0 < s.phi NG.tau () (1 : Fin 2) := dt.2
  have um' : s.u NG.mu () = ardMoments0 (s.phi NG.mu ()) := um
  have ut' : s.u NG.tau () = gammaMoments (s.phi NG.tau ()) := ut
  cases n
  · have ht : 0 ≤ s.u NG.tau () (0 : Fin 2) := by
      rw [ut']
      exact (div_pos dt1 (neg_pos.2 dt0)).le
    change (ngNet P).newPhi NG.mu s () (1 : Fin 2) < 0
    rw [ng_new_mu]
    have : ∑ _p : Fin P.D, -0.5 * s.u NG.tau () (0 : Fin 2) ≤ 0 := Finset.sum_nonpos fun _ _ => by nlinarith
    linarith
  · change (ngNet P).newPhi NG.tau s () (0 : Fin 2) < 0 ∧ 0 < (ngNet P).newPhi NG.tau s () (1 : Fin 2)
    rw [ng_new_tau, ng_new_tau]
    constructor
    · have hle : ∑ p : Fin P.D, wrap0MsgT (ard0Msg (s.u NG.y p)) (s.u NG.mu ()) 0 ≤ 0 := by
        refine Finset.sum_nonpos fun p _ => ?_
        rw [hy p, um']
        simp only [wrap0MsgT, ard0Msg, ardMoments0, Matrix.cons_val]
        have hv : 0 < -(1 / (2 * s.phi NG.mu () (1 : Fin 2))) := by
          rw [neg_pos]
          exact one_div_neg.2 (by linarith)
        have hq := sq_nonneg (data p - -s.phi NG.mu () (0 : Fin 2) / (2 * s.phi NG.mu () (1 : Fin 2)))
        generalize -s.phi NG.mu () (0 : Fin 2) / (2 * s.phi NG.mu () (1 : Fin 2)) = m at *
        nlinarith
      simp only [Matrix.cons_val]
      linarith
    · have : 0 ≤ ∑ p : Fin P.D, wrap0MsgT (ard0Msg (s.u NG.y p)) (s.u NG.mu ()) 1 := by
        refine Finset.sum_nonneg fun p _ => ?_
        simp only [wrap0MsgT, ard0Msg, Matrix.cons_val]
        norm_num
      simp only [Matrix.cons_val]
      linarith
  · exact absurd ho (by simp [ngNet])

/-- **C23** for the model of normal observations: for all data, all hyperparameters, all current distributions of the mean
and the precision and all sequences of updates, the lower bound never decreases. -/
theorem C23_normal_model (data : Fin P.D → ℝ) (ha : 0 < P.alpha0) (ha0 : 0 < P.a0) (hb0 : 0 < P.b0)
    (s : (ngNet P).State) (hs : NGState P data s) (ns : List NG) :
    (ngNet P).bound s ≤ (ngNet P).bound (ns.foldl (fun s n => (ngNet P).update n s) s) ∧
    NGState P data (ns.foldl (fun s n => (ngNet P).update n s) s) := by
  induction ns generalizing s with
  | nil => exact ⟨le_refl _, hs⟩
  | cons n ns ih =>
    have hv := ng_valid P data ha ha0 hb0 s hs n
    have h1 : (ngNet P).bound s ≤ (ngNet P).bound ((ngNet P).update n s) :=
      C23_update (ngNet P) ngDom (ng_sound P) n s (fun _ => rfl) (hs.1 n) hv
    have h2 : NGState P data ((ngNet P).update n s) := by
      refine ⟨consistent_update (ngNet P) ngDom n s hv hs.1, fun p => ?_⟩
      rw [← hs.2 p]
      cases n <;> rfl
    obtain ⟨h3, h4⟩ := ih _ h2
    exact ⟨h1.trans h3, h4⟩

/-- A state to start from: three observations, the distributions initialised to `N(0, 1)` and `Gamma(1, 1)`. -/
noncomputable example : ∃ s : (ngNet ⟨3, 0, 1, 1, 1⟩).State, NGState ⟨3, 0, 1, 1, 1⟩ ![1, 2, 4] s := by
  refine ⟨⟨fun n => match n with
      | .mu => fun _ => (![0, -1 / 2] : Fin 2 → ℝ)
      | .tau => fun _ => (![-1, 1] : Fin 2 → ℝ)
      | .y => fun _ => (![0, 0] : Fin 2 → ℝ),
    fun n => match n with
      | .mu => fun _ => ardMoments0 ![0, -1 / 2]
      | .tau => fun _ => gammaMoments ![-1, 1]
      | .y => fun p => (![(![1, 2, 4] : Fin 3 → ℝ) p, (![1, 2, 4] : Fin 3 → ℝ) p * (![1, 2, 4] : Fin 3 → ℝ) p] : Fin 2 → ℝ),
    fun n => match n with
      | .mu => fun _ => ardCgf0 ![0, -1 / 2]
      | .tau => fun _ => gammaCgf ![-1, 1]
      | .y => fun _ => 0,
    fun _ _ => 0⟩, ?_, fun p => rfl⟩
  intro n q ho
  change NG at n
  cases n
  · refine ⟨?_, rfl, rfl⟩
    change (![0, -1 / 2] : Fin 2 → ℝ) 1 < 0
    norm_num
  · refine ⟨?_, rfl, rfl⟩
    change (![-1, 1] : Fin 2 → ℝ) 0 < 0 ∧ 0 < (![-1, 1] : Fin 2 → ℝ) 1
    norm_num
  · exact absurd ho (by simp [ngNet])

end Verif
