import Verif.Model.HiddenMarkov
import Verif.Props.MixtureModel
import Verif.Props.CategoricalChain

/-!
# C23 for a complete model: the hidden Markov model
-/

namespace Verif
open Spec Matrix

section
variable {N K : ℕ}

/-- **C19** The message to the chain is the coefficient of its moments in the sum over all times. -/
theorem C19_chain_emissions (m : Fin (N + 1) → Fin K → ℝ) (u : CatChainIx K N → ℝ) :
    ∑ t, m t ⬝ᵥ cmcMarginals u t = hmChainMsg m ⬝ᵥ u := by
  rw [Fin.sum_univ_succ]
  simp only [dotProduct, Fintype.sum_sum_type, Fintype.sum_prod_type, cmcMarginals, Fin.cons_zero, Fin.cons_succ, hmChainMsg]
  refine congrArg₂ (· + ·) rfl (Finset.sum_congr rfl fun t _ => ?_)
  rw [Finset.sum_comm]
  exact Finset.sum_congr rfl fun j _ => Finset.mul_sum _ _ _

/-- **C19** The message to the transition matrix is the coefficient of its moments. -/
theorem C19_chain_transition (m : Fin N × Fin K × Fin K → ℝ) (A : Fin K → Fin K → ℝ) :
    m ⬝ᵥ hmTransition A = ∑ i, hmTransitionMsg m i ⬝ᵥ A i := by
  simp only [dotProduct, Fintype.sum_prod_type, hmTransition, hmTransitionMsg, Finset.sum_mul]
  rw [Finset.sum_comm]
  refine Finset.sum_congr rfl fun i _ => ?_
  rw [Finset.sum_comm]

example : ∑ t : Fin 3, (fun t i => (t : ℝ) * i : Fin 3 → Fin 2 → ℝ) t ⬝ᵥ cmcMarginals (fun _ => 1) t
    = hmChainMsg (fun t i => (t : ℝ) * i : Fin 3 → Fin 2 → ℝ) ⬝ᵥ fun _ => 1 := C19_chain_emissions _ _

end

variable (P : HMParams)

def hmDom : (n : HM) → Set ((hmFam P n).I → ℝ)
  | .a0 => {phi : Fin P.K → ℝ | ∀ i, 0 < phi i}
  | .A => {phi : Fin P.K → ℝ | ∀ i, 0 < phi i}
  | .z => Set.univ
  | .mu => {phi : GIx (Fin P.D) → ℝ | ((-2 : ℝ) • g1 phi).PosDef}
  | .lam => {phi : WIx (Fin P.D) → ℝ | (-w0 phi).PosDef ∧ ((Fintype.card (Fin P.D) : ℝ) - 1) / 2 < w1 phi}
  | .y => {phi : GIx (Fin P.D) → ℝ | ((-2 : ℝ) • g1 phi).PosDef}

/-- the mean of a precision matrix is symmetric -/
def hmV : (n : HM) → Set ((hmFam P n).I → ℝ)
  | .lam => {u : WIx (Fin P.D) → ℝ | (w0 u).transpose = w0 u}
  | .a0 => Set.univ
  | .A => Set.univ
  | .z => Set.univ
  | .mu => Set.univ
  | .y => Set.univ

theorem hm_sound (hK : 0 < P.K) (hN : 0 < P.N) : MultSound (hmNet P) (fun _ => 1) (hmV P) (hmDom P) where
  fam := by
    have : Nonempty (Fin P.K) := ⟨⟨0, hK⟩⟩
    intro n
    change HM at n
    cases n
    · exact C23_dirichlet_sound (Fin P.K)
    · exact C23_dirichlet_sound (Fin P.K)
    · exact C23_categorical_chain_sound hK hN
    · exact C23_gaussian_sound (Fin P.D)
    · exact C23_wishart_sound (Fin P.D) _
    · exact C23_mixture_sound (C23_gaussian_sound (Fin P.D))
  mom := by
    intro n phi hphi
    change HM at n
    cases n
    case lam => exact wishart_symmetric (ι := Fin P.D) phi hphi.1
    all_goals exact Set.mem_univ _
  ann := fun _ => one_pos
  pos := fun _ => one_pos
  own := by
    intro n k u v
    change HM at n
    cases n
    case y => cases k <;> rfl
    case z => cases k <;> rfl
    all_goals rfl
  one := by
    intro c n k k' hk
    change HM at c n
    cases c
    case y =>
      change Option Unit at k k'
      cases k with
      | none =>
        cases k' with
        | none => exact absurd rfl hk
        | some k' =>
          cases n
          case z => exact Or.inr fun _ _ => rfl
          all_goals exact Or.inl fun _ _ => rfl
      | some k =>
        cases k' with
        | none =>
          cases n
          case z => exact Or.inl fun _ _ => rfl
          all_goals exact Or.inr fun _ _ => rfl
        | some k' => exact absurd rfl hk
    case z =>
      change Bool at k k'
      cases k <;> cases k'
      · exact absurd rfl hk
      · cases n
        case a0 => exact Or.inr fun _ _ => rfl
        all_goals exact Or.inl fun _ _ => rfl
      · cases n
        case A => exact Or.inr fun _ _ => rfl
        all_goals exact Or.inl fun _ _ => rfl
      · exact absurd rfl hk
    all_goals exact absurd (Subsingleton.elim (α := Unit) k k') hk
  adjoint := by
    intro c k n u m hu
    change HM at c n
    cases c
    case a0 => exact mult_adjoint_zero (hmNet P) (fun _ => 1) (hmV P) _ _ _ _ _ (fun _ => rfl) rfl
    case A => exact mult_adjoint_zero (hmNet P) (fun _ => 1) (hmV P) _ _ _ _ _ (fun _ => rfl) rfl
    case mu => exact mult_adjoint_zero (hmNet P) (fun _ => 1) (hmV P) _ _ _ _ _ (fun _ => rfl) rfl
    case lam => exact mult_adjoint_zero (hmNet P) (fun _ => 1) (hmV P) _ _ _ _ _ (fun _ => rfl) rfl
    case z =>
      change Bool at k
      cases k
      · cases n
        case a0 => exact ⟨0, fun v _ => (add_zero _).symm⟩
        all_goals exact mult_adjoint_zero (hmNet P) (fun _ => 1) (hmV P) _ _ _ _ _ (fun _ => rfl) rfl
      · cases n
        case A =>
          refine ⟨0, fun v _ => ?_⟩
          change Unit → Fin P.N × Fin P.K × Fin P.K → ℝ at m
          change Fin P.K → Fin P.K → ℝ at v
          change 1 * ∑ p : Unit, m p ⬝ᵥ hmTransition v = 1 * ∑ i : Fin P.K, hmTransitionMsg (m ()) i ⬝ᵥ v i + 0
          rw [Fintype.sum_unique (ι := Unit), add_zero]
          exact congrArg (1 * ·) (C19_chain_transition (m ()) v)
        all_goals exact mult_adjoint_zero (hmNet P) (fun _ => 1) (hmV P) _ _ _ _ _ (fun _ => rfl) rfl
    case y =>
      change Option Unit at k
      cases k with
      | none =>
        cases n
        case z =>
          refine ⟨0, fun v _ => ?_⟩
          change Fin (P.N + 1) → Fin P.K → ℝ at m
          change Unit → CatChainIx P.K P.N → ℝ at v
          change 1 * ∑ t, m t ⬝ᵥ cmcMarginals (v ()) t = 1 * ∑ q : Unit, hmChainMsg m ⬝ᵥ v q + 0
          rw [Fintype.sum_unique (ι := Unit), add_zero]
          exact congrArg (1 * ·) (C19_chain_emissions m (v ()))
        all_goals exact mult_adjoint_zero (hmNet P) (fun _ => 1) (hmV P) _ _ _ _ _ (fun _ => rfl) rfl
      | some k =>
        cases n
        case mu =>
          obtain ⟨r, hr⟩ :=
            gm_adjoint_mu (ι := Fin P.D) (κ := Fin P.K) (A := Fin (P.N + 1)) m (u HM.lam) fun c => hu HM.lam c
          refine ⟨r, fun v _ => ?_⟩
          rw [one_mul, one_mul]
          exact hr v
        case lam =>
          obtain ⟨r, hr⟩ := gm_adjoint_lam (ι := Fin P.D) (κ := Fin P.K) (A := Fin (P.N + 1)) m (u HM.mu)
          refine ⟨r, fun v hv => ?_⟩
          rw [one_mul, one_mul]
          exact hr v hv
        all_goals exact mult_adjoint_zero (hmNet P) (fun _ => 1) (hmV P) _ _ _ _ _ (fun _ => rfl) rfl
  back := by
    intro n k u m
    change HM at n
    cases n
    case y => cases k <;> rfl
    case z => cases k <;> rfl
    all_goals rfl
  mask := by
    intro c k n u m hm q hq
    change HM at c n
    cases c
    case a0 => rfl
    case A => rfl
    case mu => rfl
    case lam => rfl
    case z =>
      change Bool at k
      cases k
      · cases n
        case a0 => exact hm () hq
        all_goals rfl
      · cases n
        case A =>
          have h0 : m () = 0 := hm () hq
          change hmTransitionMsg (m ()) q = 0
          rw [h0]
          funext j
          exact Finset.sum_eq_zero fun _ _ => rfl
        all_goals rfl
    case y =>
      change Option Unit at k
      cases k with
      | none =>
        cases n
        case z =>
          have hno : ¬∃ i, P.mask i = true := of_decide_eq_false hq
          have h0 : ∀ t, m t = 0 := fun t => hm t (eq_false_of_ne_true fun h => hno ⟨t, h⟩)
          change hmChainMsg m = 0
          funext i
          rcases i with i | ⟨t, i, j⟩
          · exact congrFun (h0 (0 : Fin (P.N + 1))) i
          · exact congrFun (h0 (Fin.succ t)) j
        all_goals rfl
      | some k =>
        cases n
        case mu =>
          have : ¬∃ i, P.mask i = true := of_decide_eq_false hq
          exact sum_msg_zero (fun (_ : Fin (P.N + 1)) (m : GWIx (Fin P.D) × Fin P.K → ℝ) =>
            toGaussianGammaMsg (wrapGWMsgX (fun j => m (j, q)) (u HM.lam q))) (fun _ => wrapGWMsgX_zero _) m
            fun i => hm i (eq_false_of_ne_true fun h => this ⟨i, h⟩)
        case lam =>
          have : ¬∃ i, P.mask i = true := of_decide_eq_false hq
          exact sum_msg_zero (fun (_ : Fin (P.N + 1)) (m : GWIx (Fin P.D) × Fin P.K → ℝ) =>
            wrapGWMsgL (fun j => m (j, q)) (toGaussianGamma (u HM.mu q))) (fun _ => wrapGWMsgL_zero _) m
            fun i => hm i (eq_false_of_ne_true fun h => this ⟨i, h⟩)
        all_goals rfl

theorem hm_sum (f : HM → ℝ) : ∑ c, f c = f .a0 + f .A + f .z + f .mu + f .lam + f .y := by
  have : (Finset.univ : Finset HM) = {.a0, .A, .z, .mu, .lam, .y} := rfl
  rw [this]
  simp [Finset.sum_insert]
  ring

/-- the messages of the data to the parameters of the states -/
noncomputable def hmMsgY (s : (hmNet P).State) (i : Fin (P.N + 1)) (c : Fin P.K) : GWIx (Fin P.D) → ℝ :=
  fun j => if P.mask i = true then cmcMarginals (N := P.N) (K := P.K) (s.u HM.z ()) i c
    * gaussianMsg (ι := Fin P.D) (s.u HM.y i) j else 0

theorem hm_new_a0 (s : (hmNet P).State) :
    (hmNet P).newPhi HM.a0 s ()
      = (fun c => P.c0 c + if (hmMask P HM.z ()) = true then (s.u HM.z () : CatChainIx P.K P.N → ℝ) (.inl c) else 0) := by
  funext k
  change Fin P.K at k
  have e : (hmNet P).newPhi HM.a0 s () k
      = 1 * ((P.c0 k + 0)
        + ∑ c : HM, ∑ k', (hmNet P).back c k' HM.a0 s.u ((hmNet P).message c k' s.u) () k) := rfl
  rw [e, hm_sum]
  have h4 : ∑ k', (hmNet P).back HM.z k' HM.a0 s.u ((hmNet P).message HM.z k' s.u) () k
      = 0 + (if (hmMask P HM.z ()) = true then (s.u HM.z () : CatChainIx P.K P.N → ℝ) (.inl k) else 0) :=
    Fintype.sum_bool _
  have h0z : ∑ k', (hmNet P).back HM.a0 k' HM.a0 s.u ((hmNet P).message HM.a0 k' s.u) () k = 0 :=
    Finset.sum_eq_zero fun _ _ => rfl
  have h1z : ∑ k', (hmNet P).back HM.A k' HM.a0 s.u ((hmNet P).message HM.A k' s.u) () k = 0 :=
    Finset.sum_eq_zero fun _ _ => rfl
  have h2z : ∑ k', (hmNet P).back HM.mu k' HM.a0 s.u ((hmNet P).message HM.mu k' s.u) () k = 0 :=
    Finset.sum_eq_zero fun _ _ => rfl
  have h3z : ∑ k', (hmNet P).back HM.lam k' HM.a0 s.u ((hmNet P).message HM.lam k' s.u) () k = 0 :=
    Finset.sum_eq_zero fun _ _ => rfl
  have h4z : ∑ k', (hmNet P).back HM.y k' HM.a0 s.u ((hmNet P).message HM.y k' s.u) () k = 0 :=
    Finset.sum_eq_zero fun k' _ => by cases k' <;> rfl
  rw [h0z, h1z, h2z, h3z, h4z, h4]
  ring

theorem hm_new_A (s : (hmNet P).State) (i : Fin P.K) :
    (hmNet P).newPhi HM.A s i
      = (fun j => P.C i j + ∑ t : Fin P.N,
          if (hmMask P HM.z ()) = true then (s.u HM.z () : CatChainIx P.K P.N → ℝ) (.inr (t, i, j)) else 0) := by
  funext k
  change Fin P.K at k
  have e : (hmNet P).newPhi HM.A s i k
      = 1 * ((P.C i k + 0)
        + ∑ c : HM, ∑ k', (hmNet P).back c k' HM.A s.u ((hmNet P).message c k' s.u) i k) := rfl
  rw [e, hm_sum]
  have h4 : ∑ k', (hmNet P).back HM.z k' HM.A s.u ((hmNet P).message HM.z k' s.u) i k
      = (∑ t : Fin P.N, if (hmMask P HM.z ()) = true then (s.u HM.z () : CatChainIx P.K P.N → ℝ) (.inr (t, i, k)) else 0)
        + 0 := Fintype.sum_bool _
  have h0z : ∑ k', (hmNet P).back HM.a0 k' HM.A s.u ((hmNet P).message HM.a0 k' s.u) i k = 0 :=
    Finset.sum_eq_zero fun _ _ => rfl
  have h1z : ∑ k', (hmNet P).back HM.A k' HM.A s.u ((hmNet P).message HM.A k' s.u) i k = 0 :=
    Finset.sum_eq_zero fun _ _ => rfl
  have h2z : ∑ k', (hmNet P).back HM.mu k' HM.A s.u ((hmNet P).message HM.mu k' s.u) i k = 0 :=
    Finset.sum_eq_zero fun _ _ => rfl
  have h3z : ∑ k', (hmNet P).back HM.lam k' HM.A s.u ((hmNet P).message HM.lam k' s.u) i k = 0 :=
    Finset.sum_eq_zero fun _ _ => rfl
  have h4z : ∑ k', (hmNet P).back HM.y k' HM.A s.u ((hmNet P).message HM.y k' s.u) i k = 0 :=
    Finset.sum_eq_zero fun k' _ => by cases k' <;> rfl
  rw [h0z, h1z, h2z, h3z, h4z, h4]
  ring

theorem hm_new_mu (s : (hmNet P).State) (c : Fin P.K) :
    (hmNet P).newPhi HM.mu s c
      = gaussianPhi (wrapGW (toGaussianGamma (gaussianFixed (P.mu0 c))) (wishartFixed (P.L0 c)))
        + ∑ i : Fin (P.N + 1), toGaussianGammaMsg (wrapGWMsgX (hmMsgY P s i c) (s.u HM.lam c)) := by
  funext k
  change GIx (Fin P.D) at k
  have e : (hmNet P).newPhi HM.mu s c k
      = 1 * ((gaussianPhi (wrapGW (toGaussianGamma (gaussianFixed (P.mu0 c))) (wishartFixed (P.L0 c))) k + 0)
        + ∑ n : HM, ∑ k', (hmNet P).back n k' HM.mu s.u ((hmNet P).message n k' s.u) c k) := rfl
  rw [e, hm_sum]
  have h4 : ∑ k', (hmNet P).back HM.y k' HM.mu s.u ((hmNet P).message HM.y k' s.u) c k
      = 0 + ∑ _ : Unit, (∑ i : Fin (P.N + 1), toGaussianGammaMsg (wrapGWMsgX (hmMsgY P s i c) (s.u HM.lam c))) k :=
    Fintype.sum_option (α := Unit) _
  have h0z : ∑ k', (hmNet P).back HM.a0 k' HM.mu s.u ((hmNet P).message HM.a0 k' s.u) c k = 0 :=
    Finset.sum_eq_zero fun _ _ => rfl
  have h1z : ∑ k', (hmNet P).back HM.A k' HM.mu s.u ((hmNet P).message HM.A k' s.u) c k = 0 :=
    Finset.sum_eq_zero fun _ _ => rfl
  have h2z : ∑ k', (hmNet P).back HM.mu k' HM.mu s.u ((hmNet P).message HM.mu k' s.u) c k = 0 :=
    Finset.sum_eq_zero fun _ _ => rfl
  have h3z : ∑ k', (hmNet P).back HM.lam k' HM.mu s.u ((hmNet P).message HM.lam k' s.u) c k = 0 :=
    Finset.sum_eq_zero fun _ _ => rfl
  have h4z : ∑ k', (hmNet P).back HM.z k' HM.mu s.u ((hmNet P).message HM.z k' s.u) c k = 0 :=
    Finset.sum_eq_zero fun k' _ => by cases k' <;> rfl
  rw [h0z, h1z, h2z, h3z, h4z, h4, Pi.add_apply, Fintype.sum_unique (ι := Unit)]
  ring

theorem hm_new_lam (s : (hmNet P).State) (c : Fin P.K) :
    (hmNet P).newPhi HM.lam s c
      = wishartPhi (wishartPriorFixed P.D P.n0) (wishartFixed (P.V0 c))
        + ∑ i : Fin (P.N + 1), wrapGWMsgL (hmMsgY P s i c) (toGaussianGamma (s.u HM.mu c)) := by
  funext k
  change WIx (Fin P.D) at k
  have e : (hmNet P).newPhi HM.lam s c k
      = 1 * ((wishartPhi (wishartPriorFixed P.D P.n0) (wishartFixed (P.V0 c)) k + 0)
        + ∑ n : HM, ∑ k', (hmNet P).back n k' HM.lam s.u ((hmNet P).message n k' s.u) c k) := rfl
  rw [e, hm_sum]
  have h4 : ∑ k', (hmNet P).back HM.y k' HM.lam s.u ((hmNet P).message HM.y k' s.u) c k
      = 0 + ∑ _ : Unit, (∑ i : Fin (P.N + 1), wrapGWMsgL (hmMsgY P s i c) (toGaussianGamma (s.u HM.mu c))) k :=
    Fintype.sum_option (α := Unit) _
  have h0z : ∑ k', (hmNet P).back HM.a0 k' HM.lam s.u ((hmNet P).message HM.a0 k' s.u) c k = 0 :=
    Finset.sum_eq_zero fun _ _ => rfl
  have h1z : ∑ k', (hmNet P).back HM.A k' HM.lam s.u ((hmNet P).message HM.A k' s.u) c k = 0 :=
    Finset.sum_eq_zero fun _ _ => rfl
  have h2z : ∑ k', (hmNet P).back HM.mu k' HM.lam s.u ((hmNet P).message HM.mu k' s.u) c k = 0 :=
    Finset.sum_eq_zero fun _ _ => rfl
  have h3z : ∑ k', (hmNet P).back HM.lam k' HM.lam s.u ((hmNet P).message HM.lam k' s.u) c k = 0 :=
    Finset.sum_eq_zero fun _ _ => rfl
  have h4z : ∑ k', (hmNet P).back HM.z k' HM.lam s.u ((hmNet P).message HM.z k' s.u) c k = 0 :=
    Finset.sum_eq_zero fun k' _ => by cases k' <;> rfl
  rw [h0z, h1z, h2z, h3z, h4z, h4, Pi.add_apply, Fintype.sum_unique (ι := Unit)]
  ring

theorem hm_new_y (s : (hmNet P).State) (i : Fin (P.N + 1)) :
    (hmNet P).newPhi HM.y s i
      = fun k => ∑ c : Fin P.K, cmcMarginals (N := P.N) (K := P.K) (s.u HM.z ()) i c
          * gaussianPhi (wrapGW (toGaussianGamma (ι := Fin P.D) (s.u HM.mu c)) (s.u HM.lam c)) k := by
  funext k
  change GIx (Fin P.D) at k
  have e : (hmNet P).newPhi HM.y s i k
      = 1 * ((∑ c : Fin P.K, cmcMarginals (N := P.N) (K := P.K) (s.u HM.z ()) i c
          * gaussianPhi (wrapGW (toGaussianGamma (ι := Fin P.D) (s.u HM.mu c)) (s.u HM.lam c)) k + 0)
        + ∑ n : HM, ∑ k', (hmNet P).back n k' HM.y s.u ((hmNet P).message n k' s.u) i k) := rfl
  have h : ∑ n : HM, ∑ k', (hmNet P).back n k' HM.y s.u ((hmNet P).message n k' s.u) i k = 0 :=
    Finset.sum_eq_zero fun n _ => Finset.sum_eq_zero fun k' _ => by
      cases n
      case y => cases k' <;> rfl
      case z => cases k' <;> rfl
      all_goals rfl
  rw [e, h]
  ring

/-! ### the new parameters are valid -/

/-- The states which the theorem is about: the observed vectors have the moments of the data; everything else has some
distribution of its family, with its moments. -/
def Spec.HMState (data : Fin (P.N + 1) → Fin P.D → ℝ) (s : (hmNet P).State) : Prop :=
  (∀ n, Consistent (hmNet P) (hmDom P) n s) ∧ ∀ i, P.mask i = true → s.u HM.y i = gaussianFixed (data i)

/-- valid hyperparameters, and at least two states -/
def Spec.HMValid : Prop :=
  0 < P.K ∧ 0 < P.N ∧ 0 < P.D ∧ (∀ c, 0 < P.c0 c) ∧ (∀ i j, 0 < P.C i j) ∧ (∀ c, (P.L0 c).PosDef) ∧
    (∀ c, (P.V0 c).PosDef) ∧ (P.D : ℝ) - 1 < P.n0

section
variable {D N : ℕ}

theorem cmcFixed_nonneg (z : Fin (N + 1) → Fin D) (k : CatChainIx D N) : 0 ≤ cmcFixed z k := by
  rcases k with i | ⟨n, i, j⟩ <;> (simp only [cmcFixed]; split <;> norm_num)

theorem cmc_moments_pos (hD : 0 < D) (hN : 0 < N) (phi : CatChainIx D N → ℝ) (k : CatChainIx D N)
    (hk : ∃ z : Fin (N + 1) → Fin D, 0 < cmcFixed z k) : 0 < cmcMoments phi k := by
  rw [C22_categorical_chain_moments hD hN]
  obtain ⟨z, hz⟩ := hk
  exact Finset.sum_pos' (fun z _ => mul_nonneg (cmcFixed_nonneg z k) (Real.exp_pos _).le)
    ⟨z, Finset.mem_univ _, mul_pos hz (Real.exp_pos _)⟩

theorem cmc_moments_nonneg (hD : 0 < D) (hN : 0 < N) (phi : CatChainIx D N → ℝ) (k : CatChainIx D N) :
    0 ≤ cmcMoments phi k := by
  rw [C22_categorical_chain_moments hD hN]
  exact Finset.sum_nonneg fun z _ => mul_nonneg (cmcFixed_nonneg z k) (Real.exp_pos _).le

theorem cmc_marginal_pos (hD : 0 < D) (hN : 0 < N) (phi : CatChainIx D N → ℝ) (t : Fin (N + 1)) (c : Fin D) :
    0 < cmcMarginals (cmcMoments phi) t c := by
  refine Fin.cases ?_ (fun n => ?_) t
  · exact cmc_moments_pos hD hN phi (.inl c) ⟨fun _ => c, by simp [cmcFixed]⟩
  · change 0 < ∑ i, cmcMoments phi (.inr (n, i, c))
    have : Nonempty (Fin D) := ⟨⟨0, hD⟩⟩
    refine Finset.sum_pos (fun i _ => ?_) Finset.univ_nonempty
    refine cmc_moments_pos hD hN phi _ ⟨fun t => if t = n.castSucc then i else c, ?_⟩
    have : n.succ ≠ n.castSucc := by
      intro h
      have := congrArg Fin.val h
      simp at this
    simp [cmcFixed, this]

end

theorem hm_z_moments (s : (hmNet P).State) (hs : ∀ n, Consistent (hmNet P) (hmDom P) n s) :
    s.u HM.z () = cmcMoments (D := P.K) (N := P.N) (s.phi HM.z ()) := by
  obtain ⟨-, e, -⟩ := hs HM.z () rfl
  exact e

theorem hm_lam_posDef (hD : 0 < P.D) (s : (hmNet P).State) (hs : ∀ n, Consistent (hmNet P) (hmDom P) n s) (c : Fin P.K) :
    (w0 (ι := Fin P.D) (s.u HM.lam c)).PosDef := by
  obtain ⟨⟨d1, d2⟩, e, -⟩ := hs HM.lam c rfl
  have e' : s.u HM.lam c = wishartMoments (ι := Fin P.D) (s.phi HM.lam c) := e
  rw [e']
  refine d1.inv.smul ?_
  have : (1 : ℝ) ≤ P.D := by exact_mod_cast hD
  rw [Fintype.card_fin] at d2
  linarith

theorem hm_second_mu (s : (hmNet P).State) (hs : ∀ n, Consistent (hmNet P) (hmDom P) n s) (c : Fin P.K) :
    SecondMoment (ι := Fin P.D) (s.u HM.mu c) := by
  obtain ⟨d, e, -⟩ := hs HM.mu c rfl
  have e' : s.u HM.mu c = gaussianMoments (s.phi HM.mu c) := e
  rw [e']
  exact secondMoment_gaussian _ d

theorem hm_valid (data : Fin (P.N + 1) → Fin P.D → ℝ) (hP : HMValid P) (s : (hmNet P).State)
    (hs : HMState P data s) (n : HM) (q : hmPlate P n) (ho : (hmNet P).observed n q = false) :
    (hmNet P).newPhi n s q ∈ hmDom P n := by
  obtain ⟨hc, hy⟩ := hs
  obtain ⟨hK, hN, hD, ha, hA, hL, hV, hn⟩ := hP
  have : Nonempty (Fin P.K) := ⟨⟨0, hK⟩⟩
  have hz : ∀ i c, 0 < cmcMarginals (N := P.N) (K := P.K) (s.u HM.z ()) i c := fun i c => by
    rw [hm_z_moments P s hc]
    exact cmc_marginal_pos hK hN _ i c
  have hz0 : ∀ k, 0 ≤ (s.u HM.z () : CatChainIx P.K P.N → ℝ) k := fun k => by
    rw [hm_z_moments P s hc]
    exact cmc_moments_nonneg hK hN _ k
  cases n
  · rw [show (hmNet P).newPhi HM.a0 s q = _ from hm_new_a0 P s]
    intro c
    refine add_pos_of_pos_of_nonneg (ha c) ?_
    split
    · exact hz0 _
    · exact le_refl _
  · rw [show (hmNet P).newPhi HM.A s q = _ from hm_new_A P s q]
    intro c
    refine add_pos_of_pos_of_nonneg (hA q c) (Finset.sum_nonneg fun t _ => ?_)
    split
    · exact hz0 _
    · exact le_refl _
  · exact Set.mem_univ _
  · rw [show (hmNet P).newPhi HM.mu s q = _ from hm_new_mu P s q]
    refine posDef_new_mu (ι := Fin P.D) _ ?_ _ (fun i => ?_) _ (hm_lam_posDef P hD s hc q).posSemidef
    · change ((1 : ℝ) • P.L0 q).PosDef
      rw [one_smul]
      exact hL q
    · change (if P.mask i = true then cmcMarginals (N := P.N) (K := P.K) (s.u HM.z ()) i q * -0.5 else 0) ≤ 0
      have := hz i q
      split
      · linarith
      · exact le_refl _
  · rw [show (hmNet P).newPhi HM.lam s q = _ from hm_new_lam P s q]
    have h := posDef_new_lam (ι := Fin P.D) (wishartPriorFixed P.D P.n0) (wishartFixed (P.V0 q)) (hV q)
      (fun i => if P.mask i = true then cmcMarginals (N := P.N) (K := P.K) (s.u HM.z ()) i q else 0)
      (fun i => by
        have := (hz i q).le
        beta_reduce
        split
        · exact this
        · exact le_refl _)
      data (fun i => hmMsgY P s i q) (fun i => by
        funext j
        change (if P.mask i = true then cmcMarginals (N := P.N) (K := P.K) (s.u HM.z ()) i q
            * gaussianMsg (ι := Fin P.D) (s.u HM.y i) j else 0)
          = (if P.mask i = true then cmcMarginals (N := P.N) (K := P.K) (s.u HM.z ()) i q else 0)
            * gaussianMsg (gaussianFixed (data i)) j
        split
        · next hm => rw [hy i hm]
        · rw [zero_mul]) (s.u HM.mu q) (hm_second_mu P s hc q)
    refine ⟨h.1, ?_⟩
    refine lt_of_lt_of_eq ?_ h.2.symm
    have h0 : wishartPriorFixed P.D P.n0 0 = P.n0 := rfl
    have h1 : 0 ≤ ∑ i : Fin (P.N + 1),
        (if P.mask i = true then cmcMarginals (N := P.N) (K := P.K) (s.u HM.z ()) i q else 0) / 2 :=
      Finset.sum_nonneg fun i _ => by
        have := (hz i q).le
        split
        · linarith
        · norm_num
    rw [h0, Fintype.card_fin]
    linarith
  · rw [show (hmNet P).newPhi HM.y s q = _ from hm_new_y P s q]
    exact posDef_new_y (ι := Fin P.D) (κ := Fin P.K) _ (hz q) _ _ (hm_lam_posDef P hD s hc)

theorem hm_update (data : Fin (P.N + 1) → Fin P.D → ℝ) (hP : HMValid P) (s : (hmNet P).State) (hs : HMState P data s)
    (n : HM) : HMState P data ((hmNet P).update n s) := by
  refine ⟨consistent_update (hmNet P) (hmDom P) n s (hm_valid P data hP s hs n) hs.1, fun i hm => ?_⟩
  rw [← hs.2 i hm]
  cases n
  case y => exact if_neg (by rw [show (hmNet P).observed HM.y i = true from hm]; simp)
  all_goals rfl

theorem hm_moments (data : Fin (P.N + 1) → Fin P.D → ℝ) (s : (hmNet P).State) (hs : HMState P data s) (n : HM)
    (q : hmPlate P n) : s.u n q ∈ hmV P n := by
  cases n
  case lam =>
    obtain ⟨d, e, -⟩ := hs.1 HM.lam q rfl
    have e' : s.u HM.lam q = wishartMoments (ι := Fin P.D) (s.phi HM.lam q) := e
    rw [e']
    exact wishart_symmetric (ι := Fin P.D) _ d.1
  all_goals exact Set.mem_univ _

/-- **C23** for the hidden Markov model: for all data, masks, hyperparameters, all current distributions and all sequences
of updates, the lower bound never decreases. -/
theorem C23_hidden_markov (data : Fin (P.N + 1) → Fin P.D → ℝ) (hP : HMValid P) (s : (hmNet P).State)
    (hs : HMState P data s) (ns : List HM) :
    (hmNet P).bound s ≤ (hmNet P).bound (ns.foldl (fun s n => (hmNet P).update n s) s) ∧
    HMState P data (ns.foldl (fun s n => (hmNet P).update n s) s) := by
  induction ns generalizing s with
  | nil => exact ⟨le_refl _, hs⟩
  | cons n ns ih =>
    have hv := hm_valid P data hP s hs n
    have h1 := C23_multiplier_update (hmNet P) (fun _ => 1) (hmV P) (hmDom P) (hm_sound P hP.1 hP.2.1) n s
      (hm_moments P data s hs) (fun _ => rfl) (hs.1 n) hv
    rw [multBound_one, multBound_one] at h1
    obtain ⟨h3, h4⟩ := ih _ (hm_update P data hP s hs n)
    exact ⟨h1.trans h3, h4⟩

/-- A state to start from: the potentials of the chain are given by `a`, and the parameters of the states have the means `m`
and unit covariances. -/
noncomputable def hmInit (data : Fin (P.N + 1) → Fin P.D → ℝ) (a : CatChainIx P.K P.N → ℝ) (m : Fin P.K → Fin P.D → ℝ) :
    (hmNet P).State where
  phi := fun n => match n with
    | .a0 => fun _ => (fun _ => 1 : Fin P.K → ℝ)
    | .A => fun _ => (fun _ => 1 : Fin P.K → ℝ)
    | .z => fun _ => a
    | .mu => fun c => mkG (m c) (-(1 / 2 : ℝ) • (1 : Matrix (Fin P.D) (Fin P.D) ℝ))
    | .lam => fun _ => mkW (-(1 : Matrix (Fin P.D) (Fin P.D) ℝ)) P.D
    | .y => fun _ => mkG (0 : Fin P.D → ℝ) (-(1 / 2 : ℝ) • (1 : Matrix (Fin P.D) (Fin P.D) ℝ))
  u := fun n => match n with
    | .a0 => fun _ => dirichletMoments (fun _ => 1 : Fin P.K → ℝ)
    | .A => fun _ => dirichletMoments (fun _ => 1 : Fin P.K → ℝ)
    | .z => fun _ => cmcMoments a
    | .mu => fun c => gaussianMoments (mkG (m c) (-(1 / 2 : ℝ) • (1 : Matrix (Fin P.D) (Fin P.D) ℝ)))
    | .lam => fun _ => wishartMoments (mkW (-(1 : Matrix (Fin P.D) (Fin P.D) ℝ)) P.D)
    | .y => fun i => if P.mask i = true then gaussianFixed (data i)
        else gaussianMoments (mkG (0 : Fin P.D → ℝ) (-(1 / 2 : ℝ) • (1 : Matrix (Fin P.D) (Fin P.D) ℝ)))
  g := fun n => match n with
    | .a0 => fun _ => dirichletCgf (fun _ => 1 : Fin P.K → ℝ)
    | .A => fun _ => dirichletCgf (fun _ => 1 : Fin P.K → ℝ)
    | .z => fun _ => cmcCgf a
    | .mu => fun c => gaussianCgf (mkG (m c) (-(1 / 2 : ℝ) • (1 : Matrix (Fin P.D) (Fin P.D) ℝ)))
    | .lam => fun _ => wishartCgf (mkW (-(1 : Matrix (Fin P.D) (Fin P.D) ℝ)) P.D)
    | .y => fun _ => gaussianCgf (mkG (0 : Fin P.D → ℝ) (-(1 / 2 : ℝ) • (1 : Matrix (Fin P.D) (Fin P.D) ℝ)))
  f := fun _ _ => 0

theorem hmInit_state (data : Fin (P.N + 1) → Fin P.D → ℝ) (a : CatChainIx P.K P.N → ℝ) (m : Fin P.K → Fin P.D → ℝ) :
    HMState P data (hmInit P data a m) := by
  have h1 : ∀ v : Fin P.D → ℝ,
      ((-2 : ℝ) • g1 (mkG v (-(1 / 2 : ℝ) • (1 : Matrix (Fin P.D) (Fin P.D) ℝ)))).PosDef := by
    intro v
    change ((-2 : ℝ) • (-(1 / 2 : ℝ) • (1 : Matrix (Fin P.D) (Fin P.D) ℝ))).PosDef
    rw [smul_smul]
    norm_num
    exact PosDef.one
  have h2 : (-w0 (mkW (-(1 : Matrix (Fin P.D) (Fin P.D) ℝ)) P.D)).PosDef := by
    change (- -(1 : Matrix (Fin P.D) (Fin P.D) ℝ)).PosDef
    rw [neg_neg]
    exact PosDef.one
  have h3 : ((Fintype.card (Fin P.D) : ℝ) - 1) / 2 < w1 (mkW (-(1 : Matrix (Fin P.D) (Fin P.D) ℝ)) P.D) := by
    change _ < (P.D : ℝ)
    rw [Fintype.card_fin]
    have : (0 : ℝ) ≤ P.D := Nat.cast_nonneg _
    linarith
  refine ⟨?_, fun i hm => if_pos hm⟩
  intro n q ho
  change HM at n
  cases n
  · exact ⟨fun _ => one_pos, rfl, rfl⟩
  · exact ⟨fun _ => one_pos, rfl, rfl⟩
  · exact ⟨Set.mem_univ _, rfl, rfl⟩
  · exact ⟨h1 _, rfl, rfl⟩
  · exact ⟨⟨h2, h3⟩, rfl, rfl⟩
  · exact ⟨h1 _, if_neg (by rw [show P.mask q = false from ho]; simp), rfl⟩

/-- five vectors, one of them missing, and three states -/
def exHM : HMParams where
  N := 4
  K := 3
  D := 2
  c0 := fun _ => 1
  C := fun i j => if i = j then 2 else 1
  mu0 := fun _ _ => 0
  L0 := fun _ => 1
  n0 := 2
  V0 := fun _ => 1
  mask := fun i => !decide (i = 0)

theorem exHM_valid : HMValid exHM :=
  ⟨by decide, by decide, by decide, fun _ => one_pos, fun i j => by simp only [exHM]; split <;> norm_num,
    fun _ => PosDef.one, fun _ => PosDef.one, by simp only [exHM]; norm_num⟩

example : (hmNet exHM).bound (hmInit exHM (fun i d => i + d) (fun _ => 0) fun c _ => c)
    ≤ (hmNet exHM).bound ((hmNet exHM).update HM.A ((hmNet exHM).update HM.z
      (hmInit exHM (fun i d => i + d) (fun _ => 0) fun c _ => c))) :=
  (C23_hidden_markov exHM (fun i d => i + d) exHM_valid _ (hmInit_state exHM _ _ _) [HM.z, HM.A]).1

end Verif
