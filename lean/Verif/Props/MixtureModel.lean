import Verif.Model.MixtureModel
import Verif.Props.MixtureFamily
import Verif.Props.PlateMultiplier
import Verif.Props.FactorModel
import Verif.Props.Convert

/-!
# C23 for a complete model: the Gaussian mixture model
-/

namespace Verif
open Spec Matrix

section
variable {ι κ A : Type} [Fintype ι] [Fintype κ] [Fintype A]

theorem gm_dot (m : GWIx ι × κ → ℝ) (mu : κ → GIx ι → ℝ) (lam : κ → WIx ι → ℝ) :
    m ⬝ᵥ gmComponents mu lam = ∑ c, (fun j => m (j, c)) ⬝ᵥ wrapGW (toGaussianGamma (mu c)) (lam c) := by
  rw [dotProduct, Fintype.sum_prod_type_right]
  rfl

theorem gm_adjoint_mu (m : A → GWIx ι × κ → ℝ) (lam : κ → WIx ι → ℝ) (hs : ∀ c, (w0 (lam c)).transpose = w0 (lam c)) :
    ∃ r, ∀ v : κ → GIx ι → ℝ, ∑ a, m a ⬝ᵥ gmComponents v lam
      = ∑ c, (∑ a, toGaussianGammaMsg (wrapGWMsgX (fun j => m a (j, c)) (lam c))) ⬝ᵥ v c + r := by
  have h : ∀ a c, ∃ r, ∀ v : GIx ι → ℝ, (fun j => m a (j, c)) ⬝ᵥ wrapGW (toGaussianGamma v) (lam c)
      = toGaussianGammaMsg (wrapGWMsgX (fun j => m a (j, c)) (lam c)) ⬝ᵥ v + r := by
    intro a c
    obtain ⟨r1, h1⟩ := C19_wrap_gaussian_wishart_mean (fun j => m a (j, c)) (lam c) (hs c)
    obtain ⟨r2, h2⟩ := C19_to_gaussian_gamma (wrapGWMsgX (fun j => m a (j, c)) (lam c))
    refine ⟨r2 + r1, fun v => ?_⟩
    have e1 := h1 (toGaussianGamma v)
    have e2 := h2 v
    beta_reduce at e1 e2
    rw [e1, e2, add_assoc]
  choose r hr using h
  refine ⟨∑ a, ∑ c, r a c, fun v => ?_⟩
  simp only [gm_dot, hr, Finset.sum_add_distrib, sum_dotProduct]
  rw [Finset.sum_comm]

theorem gm_adjoint_lam (m : A → GWIx ι × κ → ℝ) (mu : κ → GIx ι → ℝ) :
    ∃ r, ∀ v : κ → WIx ι → ℝ, (∀ c, (w0 (v c)).transpose = w0 (v c)) → ∑ a, m a ⬝ᵥ gmComponents mu v
      = ∑ c, (∑ a, wrapGWMsgL (fun j => m a (j, c)) (toGaussianGamma (mu c))) ⬝ᵥ v c + r := by
  choose r hr using fun a c => C19_wrap_gaussian_wishart_precision (fun j => m a (j, c)) (toGaussianGamma (mu c))
  refine ⟨∑ a, ∑ c, r a c, fun v hv => ?_⟩
  simp only [gm_dot, fun a c => hr a c (v c) (hv c), Finset.sum_add_distrib, sum_dotProduct]
  rw [Finset.sum_comm]

theorem wrapGWMsgX_zero (uL : WIx ι → ℝ) : toGaussianGammaMsg (wrapGWMsgX 0 uL) = 0 := by
  funext i
  rcases i with i | ⟨i, j⟩
  · change ∑ j, w0 uL i j * 0 = 0
    simp
  · change w0 uL i j * 0 = 0
    simp

theorem wrapGWMsgL_zero (uX : GGIx ι → ℝ) : wrapGWMsgL 0 uX = 0 := by
  funext i
  rcases i with ⟨i, j⟩ | _
  · change 0.5 * (gg0 uX i * 0) + 0.5 * (0 * gg0 uX j) + gg1 uX i j * 0 + gg2 uX * 0 = 0
    simp
  · rfl

end

variable (P : GMParams)

def gmDom : (n : GM) → Set ((gmFam P n).I → ℝ)
  | .alpha => {phi : Fin P.K → ℝ | ∀ i, 0 < phi i}
  | .z => Set.univ
  | .mu => {phi : GIx (Fin P.D) → ℝ | ((-2 : ℝ) • g1 phi).PosDef}
  | .lam => {phi : WIx (Fin P.D) → ℝ | (-w0 phi).PosDef ∧ ((Fintype.card (Fin P.D) : ℝ) - 1) / 2 < w1 phi}
  | .y => {phi : GIx (Fin P.D) → ℝ | ((-2 : ℝ) • g1 phi).PosDef}

/-- the mean of a precision matrix is symmetric -/
def gmV : (n : GM) → Set ((gmFam P n).I → ℝ)
  | .lam => {u : WIx (Fin P.D) → ℝ | (w0 u).transpose = w0 u}
  | .alpha => Set.univ
  | .z => Set.univ
  | .mu => Set.univ
  | .y => Set.univ

theorem wishart_symmetric {ι : Type*} [Fintype ι] [DecidableEq ι] (phi : WIx ι → ℝ) (h : (-w0 phi).PosDef) :
    (w0 (wishartMoments phi)).transpose = w0 (wishartMoments phi) := by
  change (w1 phi • (-w0 phi)⁻¹).transpose = w1 phi • (-w0 phi)⁻¹
  rw [Matrix.transpose_smul, posDef_transpose h.inv]

theorem gm_sound (hK : 0 < P.K) : MultSound (gmNet P) (fun _ => 1) (gmV P) (gmDom P) where
  fam := by
    have : Nonempty (Fin P.K) := ⟨⟨0, hK⟩⟩
    intro n
    change GM at n
    cases n
    · exact C23_dirichlet_sound (Fin P.K)
    · exact C23_multinomial_sound (Fin P.K) 1
    · exact C23_gaussian_sound (Fin P.D)
    · exact C23_wishart_sound (Fin P.D) _
    · exact C23_mixture_sound (C23_gaussian_sound (Fin P.D))
  mom := by
    intro n phi hphi
    change GM at n
    cases n
    case lam => exact wishart_symmetric (ι := Fin P.D) phi hphi.1
    all_goals exact Set.mem_univ _
  ann := fun _ => one_pos
  pos := fun _ => one_pos
  own := by
    intro n k u v
    change GM at n
    cases n
    case y => cases k <;> rfl
    all_goals rfl
  one := by
    intro c n k k' hk
    change GM at c n
    cases c
    case y =>
      change Option Unit at k k'
      cases k with
      | none =>
        cases k' with
        | none => exact absurd rfl hk
        | some k' =>
          cases n
          case z => exact Or.inr fun _ _ => rfl
          all_goals exact Or.inl fun _ _ => rfl
      | some k =>
        cases k' with
        | none =>
          cases n
          case z => exact Or.inl fun _ _ => rfl
          all_goals exact Or.inr fun _ _ => rfl
        | some k' => exact absurd rfl hk
    all_goals exact absurd (Subsingleton.elim (α := Unit) k k') hk
  adjoint := by
    intro c k n u m hu
    change GM at c n
    cases c
    case alpha => exact mult_adjoint_zero (gmNet P) (fun _ => 1) (gmV P) _ _ _ _ _ (fun _ => rfl) rfl
    case mu => exact mult_adjoint_zero (gmNet P) (fun _ => 1) (gmV P) _ _ _ _ _ (fun _ => rfl) rfl
    case lam => exact mult_adjoint_zero (gmNet P) (fun _ => 1) (gmV P) _ _ _ _ _ (fun _ => rfl) rfl
    case z =>
      cases n
      case alpha =>
        refine ⟨0, fun v _ => ?_⟩
        change Fin P.N → Fin P.K → ℝ at m
        change Unit → Fin P.K → ℝ at v
        change 1 * ∑ p, m p ⬝ᵥ v () = 1 * ∑ q : Unit, (∑ i, m i) ⬝ᵥ v q + 0
        rw [Fintype.sum_unique (ι := Unit), sum_dotProduct, add_zero]
      all_goals exact mult_adjoint_zero (gmNet P) (fun _ => 1) (gmV P) _ _ _ _ _ (fun _ => rfl) rfl
    case y =>
      change Option Unit at k
      cases k with
      | none =>
        cases n
        case z =>
          refine ⟨0, fun v _ => ?_⟩
          exact (add_zero _).symm
        all_goals exact mult_adjoint_zero (gmNet P) (fun _ => 1) (gmV P) _ _ _ _ _ (fun _ => rfl) rfl
      | some k =>
        cases n
        case mu =>
          obtain ⟨r, hr⟩ := gm_adjoint_mu (ι := Fin P.D) (κ := Fin P.K) (A := Fin P.N) m (u GM.lam) fun c => hu GM.lam c
          refine ⟨r, fun v _ => ?_⟩
          rw [one_mul, one_mul]
          exact hr v
        case lam =>
          obtain ⟨r, hr⟩ := gm_adjoint_lam (ι := Fin P.D) (κ := Fin P.K) (A := Fin P.N) m (u GM.mu)
          refine ⟨r, fun v hv => ?_⟩
          rw [one_mul, one_mul]
          exact hr v hv
        all_goals exact mult_adjoint_zero (gmNet P) (fun _ => 1) (gmV P) _ _ _ _ _ (fun _ => rfl) rfl
  back := by
    intro n k u m
    change GM at n
    cases n
    case y => cases k <;> rfl
    all_goals rfl
  mask := by
    intro c k n u m hm q hq
    change GM at c n
    cases c
    case alpha => rfl
    case mu => rfl
    case lam => rfl
    case z =>
      cases n
      case alpha =>
        have : ¬∃ i, P.mask i = true := of_decide_eq_false hq
        exact sum_msg_zero (fun (_ : Fin P.N) (m : Fin P.K → ℝ) => m) (fun _ => rfl) m
          fun i => hm i (eq_false_of_ne_true fun h => this ⟨i, h⟩)
      all_goals rfl
    case y =>
      change Option Unit at k
      cases k with
      | none =>
        cases n
        case z => exact hm q hq
        all_goals rfl
      | some k =>
        cases n
        case mu =>
          have : ¬∃ i, P.mask i = true := of_decide_eq_false hq
          exact sum_msg_zero (fun (_ : Fin P.N) (m : GWIx (Fin P.D) × Fin P.K → ℝ) =>
            toGaussianGammaMsg (wrapGWMsgX (fun j => m (j, q)) (u GM.lam q))) (fun _ => wrapGWMsgX_zero _) m
            fun i => hm i (eq_false_of_ne_true fun h => this ⟨i, h⟩)
        case lam =>
          have : ¬∃ i, P.mask i = true := of_decide_eq_false hq
          exact sum_msg_zero (fun (_ : Fin P.N) (m : GWIx (Fin P.D) × Fin P.K → ℝ) =>
            wrapGWMsgL (fun j => m (j, q)) (toGaussianGamma (u GM.mu q))) (fun _ => wrapGWMsgL_zero _) m
            fun i => hm i (eq_false_of_ne_true fun h => this ⟨i, h⟩)
        all_goals rfl

theorem gm_sum (f : GM → ℝ) : ∑ c, f c = f .alpha + f .z + f .mu + f .lam + f .y := by
  have : (Finset.univ : Finset GM) = {.alpha, .z, .mu, .lam, .y} := rfl
  rw [this]
  simp [Finset.sum_insert]
  ring

/-- the messages of the data to the parameters of the clusters -/
noncomputable def gmMsgY (s : (gmNet P).State) (i : Fin P.N) (c : Fin P.K) : GWIx (Fin P.D) → ℝ :=
  fun j => if P.mask i = true then (s.u GM.z i : Fin P.K → ℝ) c * gaussianMsg (ι := Fin P.D) (s.u GM.y i) j else 0

theorem gm_new_alpha (s : (gmNet P).State) :
    (gmNet P).newPhi GM.alpha s ()
      = (fun c => P.a0 c + ∑ i : Fin P.N, if P.mask i = true then (s.u GM.z i : Fin P.K → ℝ) c else 0) := by
  funext k
  change Fin P.K at k
  have e : (gmNet P).newPhi GM.alpha s () k
      = 1 * ((P.a0 k + 0)
        + ∑ c : GM, ∑ k', (gmNet P).back c k' GM.alpha s.u ((gmNet P).message c k' s.u) () k) := rfl
  rw [e, gm_sum]
  have h0 : ∑ k', (gmNet P).back GM.alpha k' GM.alpha s.u ((gmNet P).message GM.alpha k' s.u) () k = 0 :=
    Finset.sum_eq_zero fun _ _ => rfl
  have h1 : ∑ k', (gmNet P).back GM.mu k' GM.alpha s.u ((gmNet P).message GM.mu k' s.u) () k = 0 :=
    Finset.sum_eq_zero fun _ _ => rfl
  have h2 : ∑ k', (gmNet P).back GM.lam k' GM.alpha s.u ((gmNet P).message GM.lam k' s.u) () k = 0 :=
    Finset.sum_eq_zero fun _ _ => rfl
  have h3 : ∑ k', (gmNet P).back GM.y k' GM.alpha s.u ((gmNet P).message GM.y k' s.u) () k = 0 :=
    Finset.sum_eq_zero fun k' _ => by cases k' <;> rfl
  have h4 : ∑ k', (gmNet P).back GM.z k' GM.alpha s.u ((gmNet P).message GM.z k' s.u) () k
      = (∑ i : Fin P.N, fun c : Fin P.K => if P.mask i = true then (s.u GM.z i : Fin P.K → ℝ) c else 0) k :=
    Fintype.sum_unique (ι := Unit) _
  rw [h0, h1, h2, h3, h4, Finset.sum_apply]
  ring

theorem gm_new_mu (s : (gmNet P).State) (c : Fin P.K) :
    (gmNet P).newPhi GM.mu s c
      = gaussianPhi (wrapGW (toGaussianGamma (gaussianFixed (P.mu0 c))) (wishartFixed (P.L0 c)))
        + ∑ i : Fin P.N, toGaussianGammaMsg (wrapGWMsgX (gmMsgY P s i c) (s.u GM.lam c)) := by
  funext k
  change GIx (Fin P.D) at k
  have e : (gmNet P).newPhi GM.mu s c k
      = 1 * ((gaussianPhi (wrapGW (toGaussianGamma (gaussianFixed (P.mu0 c))) (wishartFixed (P.L0 c))) k + 0)
        + ∑ n : GM, ∑ k', (gmNet P).back n k' GM.mu s.u ((gmNet P).message n k' s.u) c k) := rfl
  rw [e, gm_sum]
  have h0 : ∑ k', (gmNet P).back GM.alpha k' GM.mu s.u ((gmNet P).message GM.alpha k' s.u) c k = 0 :=
    Finset.sum_eq_zero fun _ _ => rfl
  have h1 : ∑ k', (gmNet P).back GM.mu k' GM.mu s.u ((gmNet P).message GM.mu k' s.u) c k = 0 :=
    Finset.sum_eq_zero fun _ _ => rfl
  have h2 : ∑ k', (gmNet P).back GM.lam k' GM.mu s.u ((gmNet P).message GM.lam k' s.u) c k = 0 :=
    Finset.sum_eq_zero fun _ _ => rfl
  have h3 : ∑ k', (gmNet P).back GM.z k' GM.mu s.u ((gmNet P).message GM.z k' s.u) c k = 0 :=
    Finset.sum_eq_zero fun _ _ => rfl
  have h4 : ∑ k', (gmNet P).back GM.y k' GM.mu s.u ((gmNet P).message GM.y k' s.u) c k
      = 0 + ∑ _ : Unit, (∑ i : Fin P.N, toGaussianGammaMsg (wrapGWMsgX (gmMsgY P s i c) (s.u GM.lam c))) k :=
    Fintype.sum_option (α := Unit) _
  rw [h0, h1, h2, h3, h4, Pi.add_apply, Fintype.sum_unique (ι := Unit)]
  ring

theorem gm_new_lam (s : (gmNet P).State) (c : Fin P.K) :
    (gmNet P).newPhi GM.lam s c
      = wishartPhi (wishartPriorFixed P.D P.n0) (wishartFixed (P.V0 c))
        + ∑ i : Fin P.N, wrapGWMsgL (gmMsgY P s i c) (toGaussianGamma (s.u GM.mu c)) := by
  funext k
  change WIx (Fin P.D) at k
  have e : (gmNet P).newPhi GM.lam s c k
      = 1 * ((wishartPhi (wishartPriorFixed P.D P.n0) (wishartFixed (P.V0 c)) k + 0)
        + ∑ n : GM, ∑ k', (gmNet P).back n k' GM.lam s.u ((gmNet P).message n k' s.u) c k) := rfl
  rw [e, gm_sum]
  have h0 : ∑ k', (gmNet P).back GM.alpha k' GM.lam s.u ((gmNet P).message GM.alpha k' s.u) c k = 0 :=
    Finset.sum_eq_zero fun _ _ => rfl
  have h1 : ∑ k', (gmNet P).back GM.mu k' GM.lam s.u ((gmNet P).message GM.mu k' s.u) c k = 0 :=
    Finset.sum_eq_zero fun _ _ => rfl
  have h2 : ∑ k', (gmNet P).back GM.lam k' GM.lam s.u ((gmNet P).message GM.lam k' s.u) c k = 0 :=
    Finset.sum_eq_zero fun _ _ => rfl
  have h3 : ∑ k', (gmNet P).back GM.z k' GM.lam s.u ((gmNet P).message GM.z k' s.u) c k = 0 :=
    Finset.sum_eq_zero fun _ _ => rfl
  have h4 : ∑ k', (gmNet P).back GM.y k' GM.lam s.u ((gmNet P).message GM.y k' s.u) c k
      = 0 + ∑ _ : Unit, (∑ i : Fin P.N, wrapGWMsgL (gmMsgY P s i c) (toGaussianGamma (s.u GM.mu c))) k :=
    Fintype.sum_option (α := Unit) _
  rw [h0, h1, h2, h3, h4, Pi.add_apply, Fintype.sum_unique (ι := Unit)]
  ring

theorem gm_new_y (s : (gmNet P).State) (i : Fin P.N) :
    (gmNet P).newPhi GM.y s i
      = fun k => ∑ c : Fin P.K, (s.u GM.z i : Fin P.K → ℝ) c
          * gaussianPhi (wrapGW (toGaussianGamma (ι := Fin P.D) (s.u GM.mu c)) (s.u GM.lam c)) k := by
  funext k
  change GIx (Fin P.D) at k
  have e : (gmNet P).newPhi GM.y s i k
      = 1 * ((∑ c : Fin P.K, (s.u GM.z i : Fin P.K → ℝ) c
          * gaussianPhi (wrapGW (toGaussianGamma (ι := Fin P.D) (s.u GM.mu c)) (s.u GM.lam c)) k + 0)
        + ∑ n : GM, ∑ k', (gmNet P).back n k' GM.y s.u ((gmNet P).message n k' s.u) i k) := rfl
  have h : ∑ n : GM, ∑ k', (gmNet P).back n k' GM.y s.u ((gmNet P).message n k' s.u) i k = 0 :=
    Finset.sum_eq_zero fun n _ => Finset.sum_eq_zero fun k' _ => by
      cases n
      case y => cases k' <;> rfl
      all_goals rfl
  rw [e, h]
  ring

/-! ### the new parameters are valid -/

section
variable {ι A : Type} [Fintype ι] [DecidableEq ι] [Fintype A]

theorem posDef_new_mu (v : GWIx ι → ℝ) (hv : (gw2 v).PosDef) (m : A → GWIx ι → ℝ) (hm : ∀ a, gw1 (m a) ≤ 0)
    (uL : WIx ι → ℝ) (hL : (w0 uL).PosSemidef) :
    ((-2 : ℝ) • g1 (gaussianPhi v + ∑ a, toGaussianGammaMsg (wrapGWMsgX (m a) uL))).PosDef := by
  have e : (-2 : ℝ) • g1 (gaussianPhi v + ∑ a, toGaussianGammaMsg (wrapGWMsgX (m a) uL))
      = gw2 v + ∑ a, (-2 * gw1 (m a)) • w0 uL := by
    ext i j
    have h1 : g1 (gaussianPhi v + ∑ a, toGaussianGammaMsg (wrapGWMsgX (m a) uL)) i j
        = -0.5 * gw2 v i j + ∑ a, w0 uL i j * gw1 (m a) := by
      change gaussianPhi v (.inr (i, j)) + (∑ a, toGaussianGammaMsg (wrapGWMsgX (m a) uL)) (.inr (i, j)) = _
      rw [Finset.sum_apply]
      rfl
    rw [Matrix.smul_apply, h1, Matrix.add_apply, Matrix.sum_apply, smul_eq_mul, mul_add, Finset.mul_sum]
    congr 1
    · ring
    · exact Finset.sum_congr rfl fun a _ => by rw [Matrix.smul_apply, smul_eq_mul]; ring
  rw [e]
  exact hv.add_posSemidef (posSemidef_sum _ fun a _ => hL.smul (by have := hm a; linarith))

/-- the message of a data vector to the precision of a cluster is minus half the expected square of the difference -/
theorem wrapGWMsgL_data (w : ℝ) (y : ι → ℝ) (m : GWIx ι → ℝ) (hm : m = w • gaussianMsg (gaussianFixed y)) (u : GIx ι → ℝ)
    (C : Matrix ι ι ℝ) (e : g1 u = C + vecMulVec (g0 u) (g0 u)) :
    w0 (wrapGWMsgL m (toGaussianGamma u)) = -((w / 2) • (C + vecMulVec (g0 u - y) (g0 u - y))) := by
  subst hm
  ext i j
  have e' : g1 u i j = C i j + g0 u i * g0 u j := by rw [e]; rfl
  change 0.5 * (g0 u i * (w * y j)) + 0.5 * (w * y i * g0 u j) + g1 u i j * (w * -0.5) + 1 * (w * (-0.5 * (y i * y j)))
    = -(w / 2 * (C i j + (g0 u i - y i) * (g0 u j - y j)))
  rw [e']
  ring

theorem posDef_new_lam (un : Fin 2 → ℝ) (uV : WIx ι → ℝ) (hV : (w0 uV).PosDef) (w : A → ℝ) (hw : ∀ a, 0 ≤ w a)
    (y : A → ι → ℝ) (m : A → GWIx ι → ℝ) (hm : ∀ a, m a = w a • gaussianMsg (gaussianFixed (y a))) (u : GIx ι → ℝ)
    (hu : SecondMoment u) :
    (-w0 (wishartPhi un uV + ∑ a, wrapGWMsgL (m a) (toGaussianGamma u))).PosDef ∧
    w1 (wishartPhi un uV + ∑ a, wrapGWMsgL (m a) (toGaussianGamma u)) = 0.5 * un 0 + ∑ a, w a / 2 := by
  obtain ⟨C, hC, e⟩ := hu
  constructor
  · have h : -w0 (wishartPhi un uV + ∑ a, wrapGWMsgL (m a) (toGaussianGamma u))
        = (1 / 2 : ℝ) • w0 uV + ∑ a, (w a / 2) • (C + vecMulVec (g0 u - y a) (g0 u - y a)) := by
      ext i j
      have h1 : w0 (wishartPhi un uV + ∑ a, wrapGWMsgL (m a) (toGaussianGamma u)) i j
          = -0.5 * w0 uV i j + ∑ a, w0 (wrapGWMsgL (m a) (toGaussianGamma u)) i j := by
        change wishartPhi un uV (.inl (i, j)) + (∑ a, wrapGWMsgL (m a) (toGaussianGamma u)) (.inl (i, j)) = _
        rw [Finset.sum_apply]
        rfl
      rw [Matrix.neg_apply, h1, Matrix.add_apply, Matrix.sum_apply, Matrix.smul_apply, smul_eq_mul, neg_add,
        ← Finset.sum_neg_distrib]
      congr 1
      · ring
      · refine Finset.sum_congr rfl fun a _ => ?_
        rw [wrapGWMsgL_data (w a) (y a) (m a) (hm a) u C e, Matrix.neg_apply, neg_neg]
    rw [h]
    refine (hV.smul (by norm_num)).add_posSemidef (posSemidef_sum _ fun a _ => ?_)
    exact (hC.add (posSemidef_outer _)).smul (by have := hw a; linarith)
  · change wishartPhi un uV (.inr ()) + (∑ a, wrapGWMsgL (m a) (toGaussianGamma u)) (.inr ()) = _
    rw [Finset.sum_apply]
    congr 1
    refine Finset.sum_congr rfl fun a _ => ?_
    rw [hm a]
    change w a * 0.5 = w a / 2
    ring

theorem posDef_new_y {κ : Type} [Fintype κ] [Nonempty κ] (z : κ → ℝ) (hz : ∀ c, 0 < z c) (uX : κ → GIx ι → ℝ)
    (uL : κ → WIx ι → ℝ) (hL : ∀ c, (w0 (uL c)).PosDef) :
    ((-2 : ℝ) • g1 (fun k => ∑ c, z c * gaussianPhi (wrapGW (toGaussianGamma (uX c)) (uL c)) k)).PosDef := by
  have e : (-2 : ℝ) • g1 (fun k => ∑ c, z c * gaussianPhi (wrapGW (toGaussianGamma (uX c)) (uL c)) k)
      = ∑ c, z c • w0 (uL c) := by
    ext i j
    rw [Matrix.smul_apply, Matrix.sum_apply, smul_eq_mul]
    change -2 * ∑ c, z c * (-0.5 * (1 * w0 (uL c) i j)) = _
    rw [Finset.mul_sum]
    exact Finset.sum_congr rfl fun c _ => by rw [Matrix.smul_apply, smul_eq_mul]; ring
  rw [e]
  exact posDef_sum Finset.univ_nonempty fun c _ => (hL c).smul (hz c)

end

/-- The states which the theorem is about: the observed vectors have the moments of the data; everything else has some
distribution of its family, with its moments. -/
def Spec.GMState (data : Fin P.N → Fin P.D → ℝ) (s : (gmNet P).State) : Prop :=
  (∀ n, Consistent (gmNet P) (gmDom P) n s) ∧ ∀ i, P.mask i = true → s.u GM.y i = gaussianFixed (data i)

/-- valid hyperparameters -/
def Spec.GMValid : Prop :=
  0 < P.K ∧ 0 < P.D ∧ (∀ c, 0 < P.a0 c) ∧ (∀ c, (P.L0 c).PosDef) ∧ (∀ c, (P.V0 c).PosDef) ∧ (P.D : ℝ) - 1 < P.n0

theorem multinomial_pos {ι : Type} [Fintype ι] [Nonempty ι] (phi : ι → ℝ) (c : ι) : 0 < multinomialMoments 1 phi c := by
  change 0 < ((1 : ℕ) : ℝ) * expNormalized phi c
  rw [expNormalized_eq, Nat.cast_one, one_mul]
  exact div_pos (Real.exp_pos _) (sum_exp_pos _)

theorem gm_z_pos (hK : 0 < P.K) (s : (gmNet P).State) (hs : ∀ n, Consistent (gmNet P) (gmDom P) n s) (i : Fin P.N)
    (c : Fin P.K) : 0 < (s.u GM.z i : Fin P.K → ℝ) c := by
  have : Nonempty (Fin P.K) := ⟨⟨0, hK⟩⟩
  obtain ⟨-, e, -⟩ := hs GM.z i rfl
  have e' : s.u GM.z i = multinomialMoments (ι := Fin P.K) 1 (s.phi GM.z i) := e
  rw [e']
  exact multinomial_pos (ι := Fin P.K) _ c

theorem gm_lam_posDef (hD : 0 < P.D) (s : (gmNet P).State) (hs : ∀ n, Consistent (gmNet P) (gmDom P) n s) (c : Fin P.K) :
    (w0 (ι := Fin P.D) (s.u GM.lam c)).PosDef := by
  obtain ⟨⟨d1, d2⟩, e, -⟩ := hs GM.lam c rfl
  have e' : s.u GM.lam c = wishartMoments (ι := Fin P.D) (s.phi GM.lam c) := e
  rw [e']
  refine d1.inv.smul ?_
  have : (1 : ℝ) ≤ P.D := by exact_mod_cast hD
  rw [Fintype.card_fin] at d2
  linarith

theorem gm_second_mu (s : (gmNet P).State) (hs : ∀ n, Consistent (gmNet P) (gmDom P) n s) (c : Fin P.K) :
    SecondMoment (ι := Fin P.D) (s.u GM.mu c) := by
  obtain ⟨d, e, -⟩ := hs GM.mu c rfl
  have e' : s.u GM.mu c = gaussianMoments (s.phi GM.mu c) := e
  rw [e']
  exact secondMoment_gaussian _ d

theorem gm_valid (data : Fin P.N → Fin P.D → ℝ) (hP : GMValid P) (s : (gmNet P).State)
    (hs : GMState P data s) (n : GM) (q : gmPlate P n) (ho : (gmNet P).observed n q = false) :
    (gmNet P).newPhi n s q ∈ gmDom P n := by
  obtain ⟨hc, hy⟩ := hs
  obtain ⟨hK, hD, ha, hL, hV, hn⟩ := hP
  have : Nonempty (Fin P.K) := ⟨⟨0, hK⟩⟩
  have hz := gm_z_pos P hK s hc
  cases n
  · rw [show (gmNet P).newPhi GM.alpha s q = _ from gm_new_alpha P s]
    intro c
    refine add_pos_of_pos_of_nonneg (ha c) (Finset.sum_nonneg fun i _ => ?_)
    split
    · exact (hz i c).le
    · exact le_refl _
  · exact Set.mem_univ _
  · rw [show (gmNet P).newPhi GM.mu s q = _ from gm_new_mu P s q]
    refine posDef_new_mu (ι := Fin P.D) _ ?_ _ (fun i => ?_) _ (gm_lam_posDef P hD s hc q).posSemidef
    · change ((1 : ℝ) • P.L0 q).PosDef
      rw [one_smul]
      exact hL q
    · change (if P.mask i = true then (s.u GM.z i : Fin P.K → ℝ) q * -0.5 else 0) ≤ 0
      have := hz i q
      split
      · linarith
      · exact le_refl _
  · rw [show (gmNet P).newPhi GM.lam s q = _ from gm_new_lam P s q]
    have h := posDef_new_lam (ι := Fin P.D) (wishartPriorFixed P.D P.n0) (wishartFixed (P.V0 q)) (hV q)
      (fun i => if P.mask i = true then (s.u GM.z i : Fin P.K → ℝ) q else 0)
      (fun i => by
        have := (hz i q).le
        beta_reduce
        split
        · exact this
        · exact le_refl _)
      data (fun i => gmMsgY P s i q) (fun i => by
        funext j
        change (if P.mask i = true then (s.u GM.z i : Fin P.K → ℝ) q * gaussianMsg (ι := Fin P.D) (s.u GM.y i) j else 0)
          = (if P.mask i = true then (s.u GM.z i : Fin P.K → ℝ) q else 0) * gaussianMsg (gaussianFixed (data i)) j
        split
        · next hm => rw [hy i hm]
        · rw [zero_mul]) (s.u GM.mu q) (gm_second_mu P s hc q)
    refine ⟨h.1, ?_⟩
    refine lt_of_lt_of_eq ?_ h.2.symm
    have h0 : wishartPriorFixed P.D P.n0 0 = P.n0 := rfl
    have h1 : 0 ≤ ∑ i : Fin P.N, (if P.mask i = true then (s.u GM.z i : Fin P.K → ℝ) q else 0) / 2 :=
      Finset.sum_nonneg fun i _ => by
        have := (hz i q).le
        split
        · linarith
        · norm_num
    rw [h0, Fintype.card_fin]
    linarith
  · rw [show (gmNet P).newPhi GM.y s q = _ from gm_new_y P s q]
    exact posDef_new_y (ι := Fin P.D) (κ := Fin P.K) _ (hz q) _ _ (gm_lam_posDef P hD s hc)

theorem gm_update (data : Fin P.N → Fin P.D → ℝ) (hP : GMValid P) (s : (gmNet P).State) (hs : GMState P data s) (n : GM) :
    GMState P data ((gmNet P).update n s) := by
  refine ⟨consistent_update (gmNet P) (gmDom P) n s (gm_valid P data hP s hs n) hs.1, fun i hm => ?_⟩
  rw [← hs.2 i hm]
  cases n
  case y => exact if_neg (by rw [show (gmNet P).observed GM.y i = true from hm]; simp)
  all_goals rfl

theorem gm_moments (data : Fin P.N → Fin P.D → ℝ) (s : (gmNet P).State) (hs : GMState P data s) (n : GM)
    (q : gmPlate P n) : s.u n q ∈ gmV P n := by
  cases n
  case lam =>
    obtain ⟨d, e, -⟩ := hs.1 GM.lam q rfl
    have e' : s.u GM.lam q = wishartMoments (ι := Fin P.D) (s.phi GM.lam q) := e
    rw [e']
    exact wishart_symmetric (ι := Fin P.D) _ d.1
  all_goals exact Set.mem_univ _

/-- **C23** for the Gaussian mixture model: for all data, masks, hyperparameters, all current distributions and all
sequences of updates, the lower bound never decreases. -/
theorem C23_gaussian_mixture (data : Fin P.N → Fin P.D → ℝ) (hP : GMValid P) (s : (gmNet P).State)
    (hs : GMState P data s) (ns : List GM) :
    (gmNet P).bound s ≤ (gmNet P).bound (ns.foldl (fun s n => (gmNet P).update n s) s) ∧
    GMState P data (ns.foldl (fun s n => (gmNet P).update n s) s) := by
  induction ns generalizing s with
  | nil => exact ⟨le_refl _, hs⟩
  | cons n ns ih =>
    have hv := gm_valid P data hP s hs n
    have h1 := C23_multiplier_update (gmNet P) (fun _ => 1) (gmV P) (gmDom P) (gm_sound P hP.1) n s
      (gm_moments P data s hs) (fun _ => rfl) (hs.1 n) hv
    rw [multBound_one, multBound_one] at h1
    obtain ⟨h3, h4⟩ := ih _ (gm_update P data hP s hs n)
    exact ⟨h1.trans h3, h4⟩

/-- A state to start from: the assignments `z` are given by `a`, and the parameters of the clusters have the means `m` and
unit covariances. -/
noncomputable def gmInit (data : Fin P.N → Fin P.D → ℝ) (a : Fin P.N → Fin P.K → ℝ) (m : Fin P.K → Fin P.D → ℝ) :
    (gmNet P).State where
  phi := fun n => match n with
    | .alpha => fun _ => (fun _ => 1 : Fin P.K → ℝ)
    | .z => fun i => a i
    | .mu => fun c => mkG (m c) (-(1 / 2 : ℝ) • (1 : Matrix (Fin P.D) (Fin P.D) ℝ))
    | .lam => fun _ => mkW (-(1 : Matrix (Fin P.D) (Fin P.D) ℝ)) P.D
    | .y => fun _ => mkG (0 : Fin P.D → ℝ) (-(1 / 2 : ℝ) • (1 : Matrix (Fin P.D) (Fin P.D) ℝ))
  u := fun n => match n with
    | .alpha => fun _ => dirichletMoments (fun _ => 1 : Fin P.K → ℝ)
    | .z => fun i => multinomialMoments 1 (a i)
    | .mu => fun c => gaussianMoments (mkG (m c) (-(1 / 2 : ℝ) • (1 : Matrix (Fin P.D) (Fin P.D) ℝ)))
    | .lam => fun _ => wishartMoments (mkW (-(1 : Matrix (Fin P.D) (Fin P.D) ℝ)) P.D)
    | .y => fun i => if P.mask i = true then gaussianFixed (data i)
        else gaussianMoments (mkG (0 : Fin P.D → ℝ) (-(1 / 2 : ℝ) • (1 : Matrix (Fin P.D) (Fin P.D) ℝ)))
  g := fun n => match n with
    | .alpha => fun _ => dirichletCgf (fun _ => 1 : Fin P.K → ℝ)
    | .z => fun i => multinomialCgf 1 (a i)
    | .mu => fun c => gaussianCgf (mkG (m c) (-(1 / 2 : ℝ) • (1 : Matrix (Fin P.D) (Fin P.D) ℝ)))
    | .lam => fun _ => wishartCgf (mkW (-(1 : Matrix (Fin P.D) (Fin P.D) ℝ)) P.D)
    | .y => fun _ => gaussianCgf (mkG (0 : Fin P.D → ℝ) (-(1 / 2 : ℝ) • (1 : Matrix (Fin P.D) (Fin P.D) ℝ)))
  f := fun _ _ => 0

theorem gmInit_state (data : Fin P.N → Fin P.D → ℝ) (a : Fin P.N → Fin P.K → ℝ) (m : Fin P.K → Fin P.D → ℝ) :
    GMState P data (gmInit P data a m) := by
  have h1 : ∀ v : Fin P.D → ℝ,
      ((-2 : ℝ) • g1 (mkG v (-(1 / 2 : ℝ) • (1 : Matrix (Fin P.D) (Fin P.D) ℝ)))).PosDef := by
    intro v
    change ((-2 : ℝ) • (-(1 / 2 : ℝ) • (1 : Matrix (Fin P.D) (Fin P.D) ℝ))).PosDef
    rw [smul_smul]
    norm_num
    exact PosDef.one
  have h2 : (-w0 (mkW (-(1 : Matrix (Fin P.D) (Fin P.D) ℝ)) P.D)).PosDef := by
    change (- -(1 : Matrix (Fin P.D) (Fin P.D) ℝ)).PosDef
    rw [neg_neg]
    exact PosDef.one
  have h3 : ((Fintype.card (Fin P.D) : ℝ) - 1) / 2 < w1 (mkW (-(1 : Matrix (Fin P.D) (Fin P.D) ℝ)) P.D) := by
    change _ < (P.D : ℝ)
    rw [Fintype.card_fin]
    have : (0 : ℝ) ≤ P.D := Nat.cast_nonneg _
    linarith
  refine ⟨?_, fun i hm => if_pos hm⟩
  intro n q ho
  change GM at n
  cases n
  · exact ⟨fun _ => one_pos, rfl, rfl⟩
  · exact ⟨Set.mem_univ _, rfl, rfl⟩
  · exact ⟨h1 _, rfl, rfl⟩
  · exact ⟨⟨h2, h3⟩, rfl, rfl⟩
  · exact ⟨h1 _, if_neg (by rw [show P.mask q = false from ho]; simp), rfl⟩

/-- five vectors, one of them missing, and three clusters -/
def exGM : GMParams where
  N := 5
  K := 3
  D := 2
  a0 := fun _ => 1
  mu0 := fun _ _ => 0
  L0 := fun _ => 1
  n0 := 2
  V0 := fun _ => 1
  mask := fun i => !decide (i = 0)

theorem exGM_valid : GMValid exGM :=
  ⟨by decide, by decide, fun _ => one_pos, fun _ => PosDef.one, fun _ => PosDef.one, by simp only [exGM]; norm_num⟩

example : (gmNet exGM).bound (gmInit exGM (fun i d => i + d) (fun i c => i * c) fun c _ => c)
    ≤ (gmNet exGM).bound ((gmNet exGM).update GM.lam ((gmNet exGM).update GM.mu
      (gmInit exGM (fun i d => i + d) (fun i c => i * c) fun c _ => c))) :=
  (C23_gaussian_mixture exGM (fun i d => i + d) exGM_valid _ (gmInit_state exGM _ _ _) [GM.mu, GM.lam]).1

end Verif
