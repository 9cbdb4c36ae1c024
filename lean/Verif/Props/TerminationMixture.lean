import Verif.Props.TerminationModels
import Verif.Props.MixtureModel

/-!
# C91 for the Gaussian mixture model
-/

namespace Verif
open Spec Filter Topology Matrix

/-- The part of an unobserved element, compared with any distribution of its family; `contribution_le` for networks with symmetric
moments. -/
theorem contribution_le_mult {G : Net} {mult : G.N → ℝ} {V dom : ∀ n, Set ((G.fam n).I → ℝ)} (h : MultSound G mult V dom)
    (ha : ∀ n, G.ann n = 1) (n : G.N)
    (s : G.State) (hs : Consistent G dom n s) (q : G.plate n) (ho : G.observed n q = false) (phi : (G.fam n).I → ℝ)
    (hphi : phi ∈ dom n) :
    G.contribution n s q ≤ (G.fam n).cgfP (G.parents n s.u q) - (G.fam n).cgf phi
      + ((G.fam n).phiP (G.parents n s.u q) - phi) ⬝ᵥ s.u n q := by
  obtain ⟨h1, h2, h3⟩ := hs q ho
  have ht := (h.fam n).tangent _ h1 phi hphi
  unfold Tangent at ht
  rw [← h2, dotProduct_sub] at ht
  rw [Net.contribution_eq, ha n, ho, h3, sub_dotProduct, dotProduct_comm phi, dotProduct_comm (s.phi n q)]
  simp only [Bool.false_eq_true, if_false]
  linarith

theorem contribution_prior_le_mult {G : Net} {mult : G.N → ℝ} {V dom : ∀ n, Set ((G.fam n).I → ℝ)} (h : MultSound G mult V dom)
    (ha : ∀ n, G.ann n = 1) (n : G.N)
    (s : G.State) (hs : Consistent G dom n s) (q : G.plate n) (ho : G.observed n q = false)
    (hphi : (G.fam n).phiP (G.parents n s.u q) ∈ dom n)
    (hp : (G.fam n).cgfP (G.parents n s.u q) ≤ (G.fam n).cgf ((G.fam n).phiP (G.parents n s.u q))) :
    G.contribution n s q ≤ 0 := by
  refine (contribution_le_mult h ha n s hs q ho _ hphi).trans ?_
  rw [sub_self, zero_dotProduct, add_zero]
  exact sub_nonpos.2 hp

/-- the geometric means of probabilities have a sum of at most one -/
theorem dirichlet_exp_sum {ι : Type} [Fintype ι] [DecidableEq ι] [Nonempty ι] (phi : ι → ℝ) (h : ∀ i, 0 < phi i) :
    ∑ c, Real.exp (dirichletMoments phi c) ≤ 1 := by
  have hS : 0 < ∑ i, phi i := Finset.sum_pos (fun i _ => h i) Finset.univ_nonempty
  have hc : ∀ c, dirichletMoments phi c ≤ Real.log (phi c / ∑ i, phi i) := by
    intro c
    have ht := tangent_dirichlet phi (phi + Pi.single c 1) h fun i => by
      have := h i
      have h1 : 0 ≤ (Pi.single c 1 : ι → ℝ) i := by
        by_cases e : i = c
        · subst e; simp
        · simp [e]
      exact add_pos_of_pos_of_nonneg this h1
    unfold Tangent dirichletCgf at ht
    rw [add_sub_cancel_left, dotProduct_single, mul_one] at ht
    have e1 : ∑ i, (phi + (Pi.single c 1 : ι → ℝ)) i = ∑ i, phi i + 1 := by
      simp only [Pi.add_apply, Finset.sum_add_distrib]
      congr 1
      simp
    have e2 : ∑ i, gammaln ((phi + (Pi.single c 1 : ι → ℝ)) i) = ∑ i, gammaln (phi i) + Real.log (phi c) := by
      have : ∀ i, gammaln ((phi + (Pi.single c 1 : ι → ℝ)) i) = gammaln (phi i) + if i = c then Real.log (phi c) else 0 := by
        intro i
        by_cases e : i = c
        · subst e
          rw [Pi.add_apply, Pi.single_eq_same, if_pos rfl, gammaln_add_one _ (h i)]
        · rw [Pi.add_apply, Pi.single_eq_of_ne e, if_neg e, add_zero, add_zero]
      simp only [this, Finset.sum_add_distrib]
      simp
    rw [e1, e2, gammaln_add_one _ hS] at ht
    rw [Real.log_div (h c).ne' hS.ne']
    linarith
  calc ∑ c, Real.exp (dirichletMoments phi c) ≤ ∑ c, phi c / ∑ i, phi i :=
        Finset.sum_le_sum fun c _ => (Real.exp_le_exp.2 (hc c)).trans_eq (Real.exp_log (div_pos (h c) hS))
    _ = 1 := by rw [← Finset.sum_div, div_self hS.ne']

section
variable {ι : Type} [Fintype ι] [DecidableEq ι]

theorem gaussian_prior_cgf (mu : ι → ℝ) (L : Matrix ι ι ℝ) (hL : L.PosDef) :
    ((-2 : ℝ) • g1 (gaussianPhi (wrapGW (toGaussianGamma (gaussianFixed mu)) (wishartFixed L)))).PosDef ∧
    gaussianCgfP (wrapGW (toGaussianGamma (gaussianFixed mu)) (wishartFixed L))
      = gaussianCgf (gaussianPhi (wrapGW (toGaussianGamma (gaussianFixed mu)) (wishartFixed L))) := by
  rw [fixedParent]
  have e : (-2 : ℝ) • g1 (gaussianPhi (mkGW (L.mulVec mu) (mu ⬝ᵥ L.mulVec mu) L (Real.log L.det))) = L := by
    ext i j
    change -2 * (-0.5 * L i j) = _
    ring
  refine ⟨by rw [e]; exact hL, ?_⟩
  unfold gaussianCgf
  rw [e]
  have e0 : g0 (gaussianPhi (mkGW (L.mulVec mu) (mu ⬝ᵥ L.mulVec mu) L (Real.log L.det))) = L.mulVec mu := rfl
  have e1 : L⁻¹.mulVec (L.mulVec mu) = mu := by
    rw [mulVec_mulVec, nonsing_inv_mul _ hL.det_pos.ne'.isUnit, one_mulVec]
  simp only [e0, e1]
  rfl

theorem wishart_prior_cgf (n : ℝ) (V : Matrix ι ι ℝ) (hV : V.PosDef) :
    wishartCgfP (wishartPriorFixed (Fintype.card ι) n) (wishartFixed V) = wishartCgf (mkW ((-0.5 : ℝ) • V) (0.5 * n)) := by
  have e : -w0 (mkW ((-0.5 : ℝ) • V) (0.5 * n)) = (0.5 : ℝ) • V := by
    ext i j
    change -(-0.5 * V i j) = 0.5 * V i j
    ring
  have e1 : w1 (mkW ((-0.5 : ℝ) • V) (0.5 * n)) = 0.5 * n := rfl
  unfold wishartCgf
  rw [e, e1, det_smul, Real.log_mul (by positivity) hV.det_pos.ne', Real.log_pow]
  have e2 : Real.log 0.5 = -Real.log 2 := by
    rw [← Real.log_inv]
    norm_num
  rw [e2]
  change 0.5 * n * Real.log V.det - 0.5 * (Fintype.card ι : ℝ) * n * Real.log 2 - multigammaln (0.5 * n) (Fintype.card ι) = _
  ring

/-- The part of a precision matrix, compared with its distribution given `k` observations without error -/
theorem wishart_tilt (n k : ℝ) (V : Matrix ι ι ℝ) (hV : V.PosDef) (u : WIx ι → ℝ) :
    wishartCgfP (wishartPriorFixed (Fintype.card ι) n) (wishartFixed V) - wishartCgf (mkW ((-0.5 : ℝ) • V) (0.5 * n + k / 2))
      + (wishartPhi (wishartPriorFixed (Fintype.card ι) n) (wishartFixed V) - mkW ((-0.5 : ℝ) • V) (0.5 * n + k / 2)) ⬝ᵥ u
      = wishartCgf (mkW ((-0.5 : ℝ) • V) (0.5 * n)) - wishartCgf (mkW ((-0.5 : ℝ) • V) (0.5 * n + k / 2)) - k / 2 * w1 u := by
  rw [wishart_prior_cgf n V hV]
  have e : wishartPhi (wishartPriorFixed (Fintype.card ι) n) (wishartFixed V) - mkW ((-0.5 : ℝ) • V) (0.5 * n + k / 2)
      = mkW 0 (-(k / 2)) := by
    funext i
    rcases i with ⟨i, j⟩ | _
    · exact sub_self _
    · change 0.5 * n - (0.5 * n + k / 2) = -(k / 2)
      ring
  have e1 : (mkW 0 (-(k / 2)) : WIx ι → ℝ) ⬝ᵥ u = -(k / 2) * w1 u := by
    rw [dotProduct, Fintype.sum_sum_type]
    have h0 : ∑ p : ι × ι, (mkW 0 (-(k / 2)) : WIx ι → ℝ) (.inl p) * u (.inl p) = 0 :=
      Finset.sum_eq_zero fun p _ => zero_mul _
    rw [h0, zero_add]
    exact Fintype.sum_unique (ι := Unit) _
  rw [e, e1]
  ring

/-- The part of an observed vector in a cluster -/
theorem vector_le (y : ι → ℝ) (m : GIx ι → ℝ) (hm : SecondMoment m) (l : WIx ι → ℝ) (hl : (w0 l).PosDef) :
    gaussianPhi (wrapGW (toGaussianGamma m) l) ⬝ᵥ gaussianFixed y + gaussianCgfP (wrapGW (toGaussianGamma m) l) ≤ 1 / 2 * w1 l := by
  obtain ⟨C, hC, e⟩ := hm
  have h1 := frob_nonneg hl.posSemidef hC
  have h2 := quad_le (w0 l) hl (g0 m) y
  have e1 : gaussianPhi (wrapGW (toGaussianGamma m) l) ⬝ᵥ gaussianFixed y
      = (w0 l).mulVec (g0 m) ⬝ᵥ y + y ⬝ᵥ ((-0.5 : ℝ) • (1 : ℝ) • w0 l).mulVec y := mkG_dot _ _ _
  have e2 : gaussianCgfP (wrapGW (toGaussianGamma m) l) = -0.5 * frob (w0 l) (g1 m) + 0.5 * (w1 l + (Fintype.card ι : ℝ) * 0) := rfl
  have e3 : frob (w0 l) (g1 m) = frob (w0 l) C + g0 m ⬝ᵥ (w0 l).mulVec (g0 m) := by
    rw [e, ← frob_outer]
    simp only [frob, Matrix.add_apply, mul_add, Finset.sum_add_distrib]
    congr 1
    exact Finset.sum_congr rfl fun i _ => Finset.sum_congr rfl fun j _ => mul_comm _ _
  have e4 : (w0 l).mulVec (g0 m) ⬝ᵥ y = g0 m ⬝ᵥ (w0 l).mulVec y := by
    rw [dotProduct_mulVec, ← mulVec_transpose, posDef_transpose hl]
  rw [e1, e2, e3, e4, one_smul, smul_mulVec, dotProduct_smul, smul_eq_mul]
  linarith

end

section
variable (P : GMParams)

/-- the number of observed vectors -/
noncomputable def gmCount : ℝ := ∑ i : Fin P.N, if P.mask i then (1 : ℝ) else 0

/-- the upper bound of the lower bound -/
noncomputable def Spec.gmBound : ℝ :=
  gmCount P * gaussianF P.D + ⨆ c : Fin P.K, max 0 (wishartCgf (mkW ((-0.5 : ℝ) • P.V0 c) (0.5 * P.n0))
    - wishartCgf (mkW ((-0.5 : ℝ) • P.V0 c) (0.5 * P.n0 + gmCount P / 2)))

/-- sharing the observations between the clusters -/
theorem share_le {A B : Type} [Fintype A] [Fintype B] [Nonempty B] (m : A → Bool) (z : A → B → ℝ) (hz : ∀ a b, 0 < z a b)
    (hz1 : ∀ a, ∑ b, z a b = 1) (T : ℝ) (hT : T = ∑ a, if m a then (1 : ℝ) else 0) (K E L : B → ℝ) (F : ℝ)
    (h0 : ∀ b, L b ≤ 0) (hT' : ∀ b, L b ≤ K b - T / 2 * E b) :
    (∑ b, L b) + ∑ a, (if m a then F + ∑ b, z a b * (1 / 2 * E b) else 0) ≤ T * F + ⨆ b, max 0 (K b) := by
  have hT0 : 0 ≤ T := by
    rw [hT]
    exact Finset.sum_nonneg fun a _ => by split <;> norm_num
  let n : B → ℝ := fun b => ∑ a, if m a then z a b else 0
  have hn0 : ∀ b, 0 ≤ n b := fun b => Finset.sum_nonneg fun a _ => by
    have := (hz a b).le
    split
    · exact this
    · exact le_refl _
  have hn : ∑ b, n b = T := by
    rw [hT, Finset.sum_comm]
    refine Finset.sum_congr rfl fun a _ => ?_
    by_cases h : m a = true
    · simp only [h, if_true]
      exact hz1 a
    · simp [h]
  have e : ∑ a, (if m a then F + ∑ b, z a b * (1 / 2 * E b) else 0) = T * F + ∑ b, n b * (1 / 2 * E b) := by
    have e1 : ∑ b, n b * (1 / 2 * E b) = ∑ a, ∑ b, (if m a then z a b else 0) * (1 / 2 * E b) := by
      simp only [n, Finset.sum_mul]
      exact Finset.sum_comm
    rw [e1, hT, Finset.sum_mul, ← Finset.sum_add_distrib]
    refine Finset.sum_congr rfl fun a _ => ?_
    by_cases h : m a = true
    · simp [h]
    · simp [h]
  set S := ⨆ b, max 0 (K b) with hS
  have hKS : ∀ b, max 0 (K b) ≤ S := fun b => le_ciSup (f := fun b => max 0 (K b)) (Set.finite_range _).bddAbove b
  have hS0 : 0 ≤ S := (le_max_left 0 _).trans (hKS (Classical.arbitrary B))
  rw [e]
  by_cases hz : T = 0
  · have hnz : ∀ b, n b = 0 := fun b =>
      (Finset.sum_eq_zero_iff_of_nonneg fun b _ => hn0 b).1 (hn.trans hz) b (Finset.mem_univ _)
    simp only [hnz, zero_mul, Finset.sum_const_zero]
    have := Finset.sum_nonpos fun b (_ : b ∈ Finset.univ) => h0 b
    linarith
  · have hTp : 0 < T := lt_of_le_of_ne hT0 (Ne.symm hz)
    have hL : ∀ b, L b + n b * (1 / 2 * E b) ≤ n b / T * S := by
      intro b
      have hn1 : n b ≤ T := hn ▸ Finset.single_le_sum (fun b _ => hn0 b) (Finset.mem_univ b)
      have hl0 : 0 ≤ n b / T := div_nonneg (hn0 b) hT0
      have hl1 : n b / T ≤ 1 := (div_le_one hTp).2 hn1
      have a1 := mul_le_mul_of_nonneg_left (hT' b) hl0
      have a2 := mul_nonpos_of_nonneg_of_nonpos (sub_nonneg.2 hl1) (h0 b)
      have a3 : n b / T * (K b - T / 2 * E b) = n b / T * K b - n b * (1 / 2 * E b) := by
        field_simp
      have a4 := mul_le_mul_of_nonneg_left ((le_max_right 0 (K b)).trans (hKS b)) hl0
      rw [a3] at a1
      linarith
    have h1 := Finset.sum_le_sum fun b (_ : b ∈ Finset.univ) => hL b
    rw [Finset.sum_add_distrib, ← Finset.sum_mul, ← Finset.sum_div, hn, div_self hz, one_mul] at h1
    linarith

theorem gm_bound_le (data : Fin P.N → Fin P.D → ℝ) (hP : GMValid P) (s : (gmNet P).State) (hs : GMState P data s)
    (hf : ∀ i, P.mask i = true → s.f GM.y i = gaussianF P.D) : (gmNet P).bound s ≤ gmBound P := by
  obtain ⟨hc, hy⟩ := hs
  obtain ⟨hK, hD, ha, hL, hV, hn⟩ := hP
  have hne : Nonempty (Fin P.K) := ⟨⟨0, hK⟩⟩
  have hT : 0 ≤ gmCount P := Finset.sum_nonneg fun q _ => by split <;> norm_num
  have hal : (gmNet P).contribution GM.alpha s () ≤ 0 :=
    contribution_prior_le_mult (gm_sound P hK) (fun _ => rfl) GM.alpha s (hc GM.alpha) () rfl ha
      (le_refl (dirichletCgf P.a0))
  have hz : ∀ i : Fin P.N, (gmNet P).contribution GM.z s i ≤ 0 := by
    intro i
    have h1 : 0 ≤ multinomialCgf (ι := Fin P.K) 1 (s.u GM.alpha ()) := by
      obtain ⟨d, e, -⟩ := hc GM.alpha () rfl
      have e' : s.u GM.alpha () = dirichletMoments (ι := Fin P.K) (s.phi GM.alpha ()) := e
      rw [e']
      have h := dirichlet_exp_sum (ι := Fin P.K) (s.phi GM.alpha ()) d
      have h' := Real.log_nonpos (Finset.sum_nonneg fun c _ => (Real.exp_pos _).le) h
      unfold multinomialCgf
      rw [Nat.cast_one, one_mul]
      linarith
    exact contribution_prior_le_mult (gm_sound P hK) (fun _ => rfl) GM.z s (hc GM.z) i rfl (Set.mem_univ _) h1
  have hmu : ∀ c : Fin P.K, (gmNet P).contribution GM.mu s c ≤ 0 := by
    intro c
    obtain ⟨p1, p2⟩ := gaussian_prior_cgf (P.mu0 c) (P.L0 c) (hL c)
    exact contribution_prior_le_mult (gm_sound P hK) (fun _ => rfl) GM.mu s (hc GM.mu) c rfl p1 p2.le
  have hlam : ∀ (c : Fin P.K) (k : ℝ), 0 ≤ k → (gmNet P).contribution GM.lam s c ≤
      wishartCgf (mkW ((-0.5 : ℝ) • P.V0 c) (0.5 * P.n0)) - wishartCgf (mkW ((-0.5 : ℝ) • P.V0 c) (0.5 * P.n0 + k / 2))
        - k / 2 * w1 (ι := Fin P.D) (s.u GM.lam c) := by
    intro c k hk
    have hw := wishart_tilt P.n0 k (P.V0 c) (hV c) (s.u GM.lam c)
    rw [Fintype.card_fin] at hw
    have hd : (-w0 (mkW ((-0.5 : ℝ) • P.V0 c) (0.5 * P.n0 + k / 2))).PosDef ∧
        ((Fintype.card (Fin P.D) : ℝ) - 1) / 2 < w1 (mkW ((-0.5 : ℝ) • P.V0 c) (0.5 * P.n0 + k / 2)) := by
      constructor
      · have e : -w0 (mkW ((-0.5 : ℝ) • P.V0 c) (0.5 * P.n0 + k / 2)) = (0.5 : ℝ) • P.V0 c := by
          ext i j
          change -(-0.5 * P.V0 c i j) = 0.5 * P.V0 c i j
          ring
        rw [e]
        exact (hV c).smul (by norm_num)
      · rw [Fintype.card_fin]
        change _ < 0.5 * P.n0 + k / 2
        linarith
    exact (contribution_le_mult (gm_sound P hK) (fun _ => rfl) GM.lam s (hc GM.lam) c rfl
      (mkW ((-0.5 : ℝ) • P.V0 c) (0.5 * P.n0 + k / 2)) hd).trans_eq hw
  have hlam0 : ∀ c : Fin P.K, (gmNet P).contribution GM.lam s c ≤ 0 := by
    intro c
    refine (hlam c 0 (le_refl _)).trans_eq ?_
    rw [zero_div, add_zero, zero_mul, sub_self, sub_zero]
  have hyy : ∀ i : Fin P.N, P.mask i = true → (gmNet P).contribution GM.y s i
      ≤ gaussianF P.D + ∑ c : Fin P.K, (s.u GM.z i : Fin P.K → ℝ) c * (1 / 2 * w1 (ι := Fin P.D) (s.u GM.lam c)) := by
    intro i hm
    have ec := Net.contribution_eq (G := gmNet P) GM.y s i
    have e : s.u GM.y i = gaussianFixed (data i) := hy i hm
    rw [show (gmNet P).observed GM.y i = true from hm, if_pos rfl, show s.f GM.y i = gaussianF P.D from hf i hm, e] at ec
    have e1 : ∀ v : Fin P.K → GWIx (Fin P.D) → ℝ, ∀ z : Fin P.K → ℝ,
        (fun j => ∑ c, z c * gaussianPhi (v c) j) ⬝ᵥ gaussianFixed (data i) + ∑ c, z c * gaussianCgfP (v c)
          = ∑ c, z c * (gaussianPhi (v c) ⬝ᵥ gaussianFixed (data i) + gaussianCgfP (v c)) := by
      intro v z
      simp only [mul_add, Finset.sum_add_distrib]
      congr 1
      simp only [dotProduct, Finset.sum_mul, Finset.mul_sum]
      rw [Finset.sum_comm]
      exact Finset.sum_congr rfl fun c _ => Finset.sum_congr rfl fun j _ => mul_assoc _ _ _
    have h2 : ∑ c : Fin P.K, (s.u GM.z i : Fin P.K → ℝ) c *
        (gaussianPhi (wrapGW (toGaussianGamma (s.u GM.mu c)) (s.u GM.lam c)) ⬝ᵥ gaussianFixed (data i)
          + gaussianCgfP (ι := Fin P.D) (wrapGW (toGaussianGamma (s.u GM.mu c)) (s.u GM.lam c)))
        ≤ ∑ c : Fin P.K, (s.u GM.z i : Fin P.K → ℝ) c * (1 / 2 * w1 (ι := Fin P.D) (s.u GM.lam c)) :=
      Finset.sum_le_sum fun c _ => mul_le_mul_of_nonneg_left
        (vector_le (data i) _ (gm_second_mu P s hc c) _ (gm_lam_posDef P hD s hc c)) (gm_z_pos P hK s hc i c).le
    rw [ec, add_comm]
    exact add_le_add_right (le_of_eq_of_le (e1 _ _) h2) _
  have hz1 : ∀ i : Fin P.N, ∑ c : Fin P.K, (s.u GM.z i : Fin P.K → ℝ) c = 1 := by
    intro i
    obtain ⟨-, e, -⟩ := hc GM.z i rfl
    have e' : s.u GM.z i = multinomialMoments (ι := Fin P.K) 1 (s.phi GM.z i) := e
    rw [e']
    have e2 : ∀ phi : Fin P.K → ℝ, ∑ c, multinomialMoments 1 phi c = 1 := by
      intro phi
      unfold multinomialMoments
      simp only [Nat.cast_one, one_mul, expNormalized_eq]
      rw [← Finset.sum_div, div_self (sum_exp_pos phi).ne']
    exact e2 _
  have hz' : ∀ {A : Type} [Fintype A] (m : A → Bool) (c : A → ℝ), (∀ a, c a ≤ 0) → ∑ a, (if m a then c a else 0) ≤ 0 :=
    fun m c hc => Finset.sum_nonpos fun a _ => by split <;> [exact hc a; exact le_refl 0]
  have e : (gmNet P).bound s
      = (if (gmNet P).mask GM.alpha () = true then (gmNet P).contribution GM.alpha s () else 0)
        + (∑ d : Fin P.N, if (gmNet P).mask GM.z d then (gmNet P).contribution GM.z s d else 0)
        + (∑ d : Fin P.K, if (gmNet P).mask GM.mu d then (gmNet P).contribution GM.mu s d else 0)
        + (∑ d : Fin P.K, if (gmNet P).mask GM.lam d then (gmNet P).contribution GM.lam s d else 0)
        + ∑ q : Fin P.N, (if P.mask q then (gmNet P).contribution GM.y s q else 0) := by
    refine (gm_sum _).trans ?_
    refine congrArg₂ (· + ·) (congrArg₂ (· + ·) (congrArg₂ (· + ·) (congrArg₂ (· + ·) ?_ rfl) rfl) rfl) rfl
    exact Fintype.sum_unique (ι := Unit) _
  have z1 : (if (gmNet P).mask GM.alpha () = true then (gmNet P).contribution GM.alpha s () else 0) ≤ 0 := by
    split
    · exact hal
    · exact le_refl 0
  have z2 := hz' (fun d : Fin P.N => (gmNet P).mask GM.z d) (fun d : Fin P.N => (gmNet P).contribution GM.z s d) hz
  have z3 := hz' (fun d : Fin P.K => (gmNet P).mask GM.mu d) (fun d : Fin P.K => (gmNet P).contribution GM.mu s d) hmu
  have z5 : ∑ q : Fin P.N, (if P.mask q then (gmNet P).contribution GM.y s q else 0)
      ≤ ∑ q : Fin P.N, (if P.mask q then gaussianF P.D
        + ∑ c : Fin P.K, (s.u GM.z q : Fin P.K → ℝ) c * (1 / 2 * w1 (ι := Fin P.D) (s.u GM.lam c)) else 0) := by
    refine Finset.sum_le_sum fun q _ => ?_
    by_cases hm : P.mask q = true
    · rw [if_pos hm, if_pos hm]
      exact hyy q hm
    · rw [if_neg hm, if_neg hm]
  have z4 := share_le (A := Fin P.N) (B := Fin P.K) P.mask (fun i => s.u GM.z i) (gm_z_pos P hK s hc) hz1 (gmCount P) rfl
    (fun c => wishartCgf (mkW ((-0.5 : ℝ) • P.V0 c) (0.5 * P.n0))
      - wishartCgf (mkW ((-0.5 : ℝ) • P.V0 c) (0.5 * P.n0 + gmCount P / 2)))
    (fun c => w1 (ι := Fin P.D) (s.u GM.lam c))
    (fun c : Fin P.K => if (gmNet P).mask GM.lam c then (gmNet P).contribution GM.lam s c else 0) (gaussianF P.D)
    (fun c => by
      split
      · exact hlam0 c
      · exact le_refl 0)
    (fun c => by
      by_cases hm : (gmNet P).mask GM.lam c = true
      · rw [if_pos hm]
        exact hlam c (gmCount P) hT
      · rw [if_neg hm]
        have h0 : gmCount P = 0 := Finset.sum_eq_zero fun q _ => if_neg fun h => hm (decide_eq_true ⟨q, h⟩)
        rw [h0]
        simp)
  rw [e]
  have h1 := add_le_add (add_le_add (add_le_add z1 z2) z3) (le_trans (add_le_add_right z5 _) z4)
  rw [gmBound]
  refine le_trans (le_of_eq ?_) (h1.trans_eq ?_)
  · ring
  · ring

theorem gm_step (data : Fin P.N → Fin P.D → ℝ) (hP : GMValid P) (s : (gmNet P).State) (n : GM)
    (h : GMState P data s ∧ ∀ i, P.mask i = true → s.f GM.y i = gaussianF P.D) :
    (GMState P data ((gmNet P).update n s) ∧ ∀ i, P.mask i = true → ((gmNet P).update n s).f GM.y i = gaussianF P.D) ∧
      (gmNet P).bound s ≤ (gmNet P).bound ((gmNet P).update n s) :=
  have h' := C23_gaussian_mixture P data hP s h.1 [n]
  ⟨⟨h'.2, h.2⟩, h'.1⟩

/-- **C91, Gaussian mixture model** Whatever the data, the missing vectors, the hyperparameters, the current distributions, the
nodes that are updated and the (positive) tolerance: `update(repeat=None)` ends, or the bounds tend to zero. -/
theorem C91_gaussian_mixture (data : Fin P.N → Fin P.D → ℝ) (hP : GMValid P) (name : GM → String)
    (ns : List GM) (tol : Option (Option ℝ)) (s : VBState GM (gmNet P).State Unit Unit (Option ℝ))
    (hr : VBReachable (netEnv (gmNet P) name) s) (hall : ∀ n : GM, n ∈ s.model)
    (hauto : s.autosaveIterations = 0) (hcheck : s.ignoreBoundChecks = false)
    (t : ℝ) (ht : 0 < t) (htol : tol.getD s.tol = some t)
    (hs : GMState P data (netDecode (gmNet P) s.world))
    (hf : ∀ i, P.mask i = true → (netDecode (gmNet P) s.world).f GM.y i = gaussianF P.D) :
    (∃ k s', updateLoop (netEnv (gmNet P) name) (ns.map .node) tol k s = (.ok true, s')) ∨
      ∃ st : ℕ → VBState GM (gmNet P).State Unit Unit (Option ℝ),
        (∀ k, updateLoop (netEnv (gmNet P) name) (ns.map .node) tol k s = (.ok false, st k)) ∧
        Tendsto (fun k => (gmNet P).bound (netDecode (gmNet P) (st k).world)) atTop (𝓝 0) :=
  C91_network (gmNet P) name (fun s => GMState P data s ∧ ∀ i, P.mask i = true → s.f GM.y i = gaussianF P.D)
    (fun s n h => gm_step P data hP s n h) (gmBound P) (fun s h => gm_bound_le P data hP s h.1 h.2) ns tol s hr hall hauto hcheck
    t ht htol ⟨hs, hf⟩

/-- **C91, Gaussian mixture model** If the prior of the precisions makes the observations improbable, whatever they are
(`gmBound P < 0`), `update(repeat=None)` ends. -/
theorem C91_gaussian_mixture_ends (data : Fin P.N → Fin P.D → ℝ) (hP : GMValid P) (hB : gmBound P < 0) (name : GM → String)
    (ns : List GM) (tol : Option (Option ℝ)) (s : VBState GM (gmNet P).State Unit Unit (Option ℝ))
    (hr : VBReachable (netEnv (gmNet P) name) s) (hall : ∀ n : GM, n ∈ s.model)
    (hauto : s.autosaveIterations = 0) (hcheck : s.ignoreBoundChecks = false)
    (t : ℝ) (ht : 0 < t) (htol : tol.getD s.tol = some t)
    (hs : GMState P data (netDecode (gmNet P) s.world))
    (hf : ∀ i, P.mask i = true → (netDecode (gmNet P) s.world).f GM.y i = gaussianF P.D) :
    ∃ k s', updateLoop (netEnv (gmNet P) name) (ns.map .node) tol k s = (.ok true, s') :=
  C91_network_ends (gmNet P) name (fun s => GMState P data s ∧ ∀ i, P.mask i = true → s.f GM.y i = gaussianF P.D)
    (fun s n h => gm_step P data hP s n h) (gmBound P) hB (fun s h => gm_bound_le P data hP s h.1 h.2) ns tol s hr hall hauto hcheck
    t ht htol ⟨hs, hf⟩

end

theorem exGM_bound : gmBound exGM < 0 := by
  have hc : gmCount exGM = 4 := by
    change ∑ i : Fin 5, (if (!decide (i = 0)) = true then (1 : ℝ) else 0) = 4
    simp [Fin.sum_univ_five]
    norm_num
  have hw : ∀ a : ℝ, wishartCgf (mkW ((-0.5 : ℝ) • (1 : Matrix (Fin 2) (Fin 2) ℝ)) a)
      = a * Real.log 0.25 - (1 / 2 * Real.log Real.pi + (gammaln a + gammaln (a - 0.5))) := by
    intro a
    have e : (-w0 (mkW ((-0.5 : ℝ) • (1 : Matrix (Fin 2) (Fin 2) ℝ)) a)).det = 0.25 := by
      have : -w0 (mkW ((-0.5 : ℝ) • (1 : Matrix (Fin 2) (Fin 2) ℝ)) a) = (0.5 : ℝ) • (1 : Matrix (Fin 2) (Fin 2) ℝ) := by
        ext i j
        change -(-0.5 * (1 : Matrix (Fin 2) (Fin 2) ℝ) i j) = 0.5 * (1 : Matrix (Fin 2) (Fin 2) ℝ) i j
        ring
      rw [this, det_smul, det_one, Fintype.card_fin]
      norm_num
    unfold wishartCgf multigammaln
    rw [e, Fintype.card_fin, Finset.sum_range_succ, Finset.sum_range_one]
    change a * _ - _ = _
    have e1 : w1 (mkW ((-0.5 : ℝ) • (1 : Matrix (Fin 2) (Fin 2) ℝ)) a) = a := rfl
    rw [e1]
    norm_num
  have g1' : gammaln 1 = 0 := by simp [gammaln]
  have g3 : gammaln 3 = Real.log 2 := by
    have h1 := gammaln_add_one 1 one_pos
    have h2 := gammaln_add_one 2 two_pos
    rw [show (1 : ℝ) + 1 = 2 by norm_num, g1', Real.log_one] at h1
    rw [show (2 : ℝ) + 1 = 3 by norm_num, h1] at h2
    linarith
  have g25 : gammaln (3 - 0.5) = gammaln (1 - 0.5) + Real.log 0.75 := by
    have h1 := gammaln_add_one (1 - 0.5) (by norm_num)
    have h2 := gammaln_add_one 1.5 (by norm_num)
    rw [show (1 - 0.5 : ℝ) + 1 = 1.5 by norm_num] at h1
    rw [show (1.5 : ℝ) + 1 = 3 - 0.5 by norm_num, h1] at h2
    have h3 : Real.log 0.75 = Real.log (1 - 0.5) + Real.log 1.5 := by
      rw [← Real.log_mul (by norm_num) (by norm_num)]
      norm_num
    linarith
  have hK : wishartCgf (mkW ((-0.5 : ℝ) • (1 : Matrix (Fin 2) (Fin 2) ℝ)) (0.5 * 2))
      - wishartCgf (mkW ((-0.5 : ℝ) • (1 : Matrix (Fin 2) (Fin 2) ℝ)) (0.5 * 2 + 4 / 2)) = Real.log 24 := by
    rw [show (0.5 * 2 : ℝ) = 1 by norm_num, show (1 + 4 / 2 : ℝ) = 3 by norm_num, hw, hw, g1', g3, g25]
    have h1 : Real.log 24 = Real.log 2 + Real.log 0.75 - 2 * Real.log 0.25 := by
      rw [← Real.log_mul (by norm_num) (by norm_num), show (2 : ℝ) * Real.log 0.25 = Real.log (0.25 ^ 2) by
        rw [Real.log_pow]; norm_num, ← Real.log_div (by norm_num) (by norm_num)]
      norm_num
    linarith
  have e : gmBound exGM = 4 * gaussianF 2 + ⨆ _c : Fin 3, max 0 (Real.log 24) := by
    unfold gmBound
    rw [hc, ← hK]
    rfl
  have h24 : 0 ≤ Real.log 24 := Real.log_nonneg (by norm_num)
  rw [e, ciSup_const, max_eq_right h24, gaussianF]
  have hp := Real.pi_gt_three
  have hl : Real.log 24 < 4 * Real.log (2 * Real.pi) := by
    rw [show (4 : ℝ) * Real.log (2 * Real.pi) = Real.log ((2 * Real.pi) ^ 4) by rw [Real.log_pow]; norm_num]
    refine Real.log_lt_log (by norm_num) ?_
    have : (6 : ℝ) ^ 4 ≤ (2 * Real.pi) ^ 4 := pow_le_pow_left₀ (by norm_num) (by linarith) 4
    norm_num at this ⊢
    linarith
  push_cast
  linarith

/-- `Q = VB(Y, mu, Lambda, z, alpha); Q.update(z, mu, Lambda, repeat=None)` ends -/
example : ∃ s, vbInit (netEnv (gmNet exGM) fun _ => "") [GM.y, GM.mu, GM.lam, GM.z, GM.alpha] (some 1e-5) 0
      (fun _ => ⟨{ gmInit exGM (fun i d => i + d) (fun i c => i * c) (fun c _ => c) with f := fun _ _ => gaussianF 2 },
        (), (), some 1⟩)
      none = .ok s ∧
    ∃ k s', updateLoop (netEnv (gmNet exGM) fun _ => "") ([GM.z, GM.mu, GM.lam].map .node) none k s = (.ok true, s') := by
  refine ⟨_, vbInit_eq _ _ _ _ _ _, C91_gaussian_mixture_ends exGM (fun i d => i + d) exGM_valid exGM_bound
    (fun _ => "") [GM.z, GM.mu, GM.lam] none _ ⟨_, _, _, _, _, _, [], vbInit_eq _ _ _ _ _ _, rfl⟩ (fun n => ?_) rfl rfl 1e-5
    (by norm_num) rfl (gmInit_state exGM (fun i d => i + d) (fun i c => i * c) fun c _ => c) fun _ _ => rfl⟩
  cases n <;> decide

end Verif
