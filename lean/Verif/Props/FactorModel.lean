import Verif.Props.NormalModel
import Verif.Props.EuclideanGradient
import Mathlib.Analysis.Matrix.Order

/-!
# C23 for a complete model: factor analysis with missing values
-/

namespace Verif
open Spec Matrix

section
variable {ι : Type*} [Fintype ι]

theorem dotMoments_comm (w x : GIx ι → ℝ) : dotMoments w x = dotMoments x w := by
  unfold dotMoments
  congr 1
  · exact Finset.sum_congr rfl fun d _ => mul_comm _ _
  · congr 1
    exact Finset.sum_congr rfl fun d _ => Finset.sum_congr rfl fun e _ => mul_comm _ _

theorem dotMoments_adjoint (m : Fin 2 → ℝ) (w x : GIx ι → ℝ) : m ⬝ᵥ dotMoments w x = dotMsg m x ⬝ᵥ w := by
  have e : dotMsg m x ⬝ᵥ w = ∑ d, m 0 * g0 x d * g0 w d + ∑ p : ι × ι, m 1 * g1 x p.1 p.2 * g1 w p.1 p.2 :=
    Fintype.sum_sum_type _
  rw [e, Fintype.sum_prod_type]
  simp only [dotProduct, Fin.sum_univ_two, dotMoments, Matrix.cons_val, Finset.mul_sum]
  congr 1
  · exact Finset.sum_congr rfl fun d _ => by ring
  · exact Finset.sum_congr rfl fun d _ => Finset.sum_congr rfl fun e _ => by ring

end

variable (P : FAParams)

def faDom : (n : FA) → Set ((faFam P n).I → ℝ)
  | .alpha => {phi : Fin 2 → ℝ | phi 0 < 0 ∧ 0 < phi 1}
  | .w => {phi : GIx (Fin P.D) → ℝ | ((-2 : ℝ) • g1 phi).PosDef}
  | .x => {phi : GIx (Fin P.D) → ℝ | ((-2 : ℝ) • g1 phi).PosDef}
  | .tau => {phi : Fin 2 → ℝ | phi 0 < 0 ∧ 0 < phi 1}
  | .y => {phi : Fin 2 → ℝ | phi 1 < 0}

theorem faSlot_own (n : FA) (k) (u : FAMoments P) (v) : faSlot P n k (Function.update u n v) = faSlot P n k u := by
  cases n <;> rfl

theorem fa_adjoint_y_w (t : Fin 2 → ℝ) (x : Fin P.N → GIx (Fin P.D) → ℝ) (m : Fin P.M × Fin P.N → Fin 4 → ℝ)
    (v : Fin P.M → GIx (Fin P.D) → ℝ) :
    ∑ p, m p ⬝ᵥ wrap0 (dotMoments (v p.1) (x p.2)) t
      = ∑ i, (∑ j, dotMsg (wrap0MsgX (m (i, j)) t) (x j)) ⬝ᵥ v i + ∑ p, (m p 2 * t 0 + m p 3 * t 1) := by
  simp only [wrap0_adjoint_x, Finset.sum_add_distrib, dotMoments_adjoint, sum_dotProduct]
  rw [Fintype.sum_prod_type]

theorem fa_adjoint_y_x (t : Fin 2 → ℝ) (w : Fin P.M → GIx (Fin P.D) → ℝ) (m : Fin P.M × Fin P.N → Fin 4 → ℝ)
    (v : Fin P.N → GIx (Fin P.D) → ℝ) :
    ∑ p, m p ⬝ᵥ wrap0 (dotMoments (w p.1) (v p.2)) t
      = ∑ j, (∑ i, dotMsg (wrap0MsgX (m (i, j)) t) (w i)) ⬝ᵥ v j + ∑ p, (m p 2 * t 0 + m p 3 * t 1) := by
  simp only [wrap0_adjoint_x, Finset.sum_add_distrib, dotMoments_comm (w _), dotMoments_adjoint, sum_dotProduct]
  rw [Fintype.sum_prod_type, Finset.sum_comm]

theorem fa_adjoint_y_tau (f : Fin P.M × Fin P.N → Fin 2 → ℝ) (m : Fin P.M × Fin P.N → Fin 4 → ℝ)
    (v : Unit → Fin 2 → ℝ) :
    ∑ p, m p ⬝ᵥ wrap0 (f p) (v ()) = ∑ q : Unit, (∑ p, wrap0MsgT (m p) (f p)) ⬝ᵥ v q + 0 := by
  have e : ∑ q : Unit, (∑ p, wrap0MsgT (m p) (f p)) ⬝ᵥ v q = (∑ p, wrap0MsgT (m p) (f p)) ⬝ᵥ v () :=
    Fintype.sum_unique _
  rw [e, sum_dotProduct, add_zero]
  exact Finset.sum_congr rfl fun p _ => wrap0_adjoint_t (m p) (f p) (v ())

theorem fa_adjoint_w_alpha (mu : Fin P.M → Fin P.D → Fin 2 → ℝ) (m : Fin P.M → Fin P.D × Fin 4 → ℝ)
    (v : Fin P.D → Fin 2 → ℝ) :
    ∑ p, m p ⬝ᵥ (fun i : Fin P.D × Fin 4 => wrap0 (mu p i.1) (v i.1) i.2)
      = ∑ d, (∑ i, wrap0MsgT (fun j => m i (d, j)) (mu i d)) ⬝ᵥ v d + 0 := by
  simp only [sum_dotProduct, add_zero, ← wrap0_adjoint_t]
  rw [Finset.sum_comm]
  refine Finset.sum_congr rfl fun p _ => ?_
  simp only [dotProduct]
  rw [Fintype.sum_prod_type]

theorem dotMsg_zero (ι : Type*) [Fintype ι] (x : GIx ι → ℝ) : dotMsg 0 x = 0 := by
  funext i
  cases i <;> simp [dotMsg, mkG]

theorem wrap0MsgX_zero (t : Fin 2 → ℝ) : wrap0MsgX 0 t = 0 := by
  funext j
  fin_cases j <;> simp [wrap0MsgX]

theorem dotMsg_wrap_zero {ι : Type*} [Fintype ι] (t : Fin 2 → ℝ) (x : GIx ι → ℝ) : dotMsg (wrap0MsgX 0 t) x = 0 := by
  rw [wrap0MsgX_zero, dotMsg_zero]

theorem wrap0MsgT_zero (t : Fin 2 → ℝ) : wrap0MsgT 0 t = 0 := by
  funext j
  fin_cases j <;> simp [wrap0MsgT]

theorem sum_msg_zero {A I J : Type*} [Fintype A] (F : A → (I → ℝ) → J → ℝ) (hF : ∀ a, F a 0 = 0) (m : A → I → ℝ)
    (hm : ∀ a, m a = 0) : ∑ a, F a (m a) = 0 :=
  Finset.sum_eq_zero fun a _ => by rw [hm, hF]

theorem fa_sound : NetSound (faNet P) (faDom P) where
  fam := by
    intro n
    change FA at n
    cases n
    · exact C23_gamma_sound
    · exact C23_gaussianARD_sound (Fin P.D)
    · exact C23_gaussianARD_sound (Fin P.D)
    · exact C23_gamma_sound
    · exact C23_gaussianARD_scalar_sound
  ann := fun _ => one_pos
  own := fun n k u v => faSlot_own P n k u v
  one := by
    intro c n k k' hk
    change FA at c
    cases c
    · exact Or.inl fun _ _ => rfl
    · exact absurd (Subsingleton.elim (α := Unit) k k') hk
    · exact absurd (Subsingleton.elim (α := Unit) k k') hk
    · exact Or.inl fun _ _ => rfl
    · exact absurd (Subsingleton.elim (α := Unit) k k') hk
  adjoint := by
    intro c k n u m
    change FA at c n
    cases c
    · exact adjoint_zero (faNet P) _ _ _ _ _ (fun _ => rfl) rfl
    · cases n
      · exact ⟨_, fun v => fa_adjoint_w_alpha P (fun i d => fixed0 (P.muW i d)) m v⟩
      all_goals exact adjoint_zero (faNet P) _ _ _ _ _ (fun _ => rfl) rfl
    · exact adjoint_zero (faNet P) _ _ _ _ _ (fun _ => rfl) rfl
    · exact adjoint_zero (faNet P) _ _ _ _ _ (fun _ => rfl) rfl
    · cases n
      · exact adjoint_zero (faNet P) _ _ _ _ _ (fun _ => rfl) rfl
      · exact ⟨_, fun v => fa_adjoint_y_w P (u FA.tau ()) (u FA.x) m v⟩
      · exact ⟨_, fun v => fa_adjoint_y_x P (u FA.tau ()) (u FA.w) m v⟩
      · exact ⟨_, fun v => fa_adjoint_y_tau P (fun q => dotMoments (u FA.w q.1) (u FA.x q.2)) m v⟩
      · exact adjoint_zero (faNet P) _ _ _ _ _ (fun _ => rfl) rfl
  mask := by
    intro c k n u m hm q hq
    change FA at c n
    cases c
    · rfl
    · cases n
      · refine sum_msg_zero (fun (i : Fin P.M) (m : Fin P.D × Fin 4 → ℝ) =>
          wrap0MsgT (fun j => m (q, j)) (fixed0 (P.muW i q))) (fun i => wrap0MsgT_zero _) m fun i => ?_
        have : ¬∃ i j, P.mask i j = true := of_decide_eq_false hq
        exact hm i (decide_eq_false fun ⟨j, hj⟩ => this ⟨i, j, hj⟩)
      all_goals rfl
    · rfl
    · rfl
    · have hz : ∀ i j, P.mask i j = false → m (i, j) = 0 := fun i j h => hm (i, j) h
      cases n
      · rfl
      · have : ¬∃ j, P.mask q j = true := of_decide_eq_false hq
        exact sum_msg_zero (fun (j : Fin P.N) (m : Fin 4 → ℝ) => dotMsg (wrap0MsgX m (u FA.tau ())) (u FA.x j))
          (fun _ => dotMsg_wrap_zero _ _) (fun j => m (q, j)) fun j =>
            hz q j (by simpa using fun h => this ⟨j, h⟩)
      · have : ¬∃ i, P.mask i q = true := of_decide_eq_false hq
        exact sum_msg_zero (fun (i : Fin P.M) (m : Fin 4 → ℝ) => dotMsg (wrap0MsgX m (u FA.tau ())) (u FA.w i))
          (fun _ => dotMsg_wrap_zero _ _) (fun i => m (i, q)) fun i =>
            hz i q (by simpa using fun h => this ⟨i, h⟩)
      · have : ¬∃ i j, P.mask i j = true := of_decide_eq_false hq
        exact sum_msg_zero (fun (p : Fin P.M × Fin P.N) (m : Fin 4 → ℝ) =>
          wrap0MsgT m (dotMoments (u FA.w p.1) (u FA.x p.2))) (fun p => wrap0MsgT_zero _) m fun p =>
            hz p.1 p.2 (by simpa using fun h => this ⟨p.1, p.2, h⟩)
      · rfl

theorem fa_sum (f : FA → ℝ) : ∑ c, f c = f .alpha + f .w + f .x + f .tau + f .y := by
  have : (Finset.univ : Finset FA) = {.alpha, .w, .x, .tau, .y} := rfl
  rw [this]
  simp [Finset.sum_insert]
  ring

/-- the messages of the observations -/
noncomputable def faMsgY (s : (faNet P).State) (p : Fin P.M × Fin P.N) : Fin 4 → ℝ :=
  fun i => if P.mask p.1 p.2 = true then ard0Msg (s.u FA.y p) i else 0

theorem fa_new_x (s : (faNet P).State) (j : Fin P.N) :
    (faNet P).newPhi FA.x s j
      = ardPhi (fun i : Fin P.D × Fin 4 => wrap0 (fixed0 (P.muX j i.1)) (gammaFixed (P.alphaX j i.1)) i.2)
        + ∑ i : Fin P.M, dotMsg (wrap0MsgX (faMsgY P s (i, j)) (s.u FA.tau ())) (s.u FA.w i) := by
  funext k
  change GIx (Fin P.D) at k
  have e : (faNet P).newPhi FA.x s j k
      = 1 * ((ardPhi (fun i : Fin P.D × Fin 4 => wrap0 (fixed0 (P.muX j i.1)) (gammaFixed (P.alphaX j i.1)) i.2) k + 0)
        + ∑ c : FA, ∑ k', (faNet P).back c k' FA.x s.u ((faNet P).message c k' s.u) j k) := rfl
  rw [e, fa_sum]
  have h0 : ∑ k', (faNet P).back FA.alpha k' FA.x s.u ((faNet P).message FA.alpha k' s.u) j k = 0 :=
    Finset.sum_eq_zero fun _ _ => rfl
  have h1 : ∑ k', (faNet P).back FA.w k' FA.x s.u ((faNet P).message FA.w k' s.u) j k = 0 :=
    Finset.sum_eq_zero fun _ _ => rfl
  have h2 : ∑ k', (faNet P).back FA.x k' FA.x s.u ((faNet P).message FA.x k' s.u) j k = 0 :=
    Finset.sum_eq_zero fun _ _ => rfl
  have h3 : ∑ k', (faNet P).back FA.tau k' FA.x s.u ((faNet P).message FA.tau k' s.u) j k = 0 :=
    Finset.sum_eq_zero fun _ _ => rfl
  have h4 : ∑ k', (faNet P).back FA.y k' FA.x s.u ((faNet P).message FA.y k' s.u) j k
      = (∑ i : Fin P.M, dotMsg (wrap0MsgX (faMsgY P s (i, j)) (s.u FA.tau ())) (s.u FA.w i)) k :=
    Fintype.sum_unique (ι := Unit) _
  rw [h0, h1, h2, h3, h4, Pi.add_apply]
  ring

theorem fa_new_w (s : (faNet P).State) (i : Fin P.M) :
    (faNet P).newPhi FA.w s i
      = ardPhi (fun d : Fin P.D × Fin 4 => wrap0 (fixed0 (P.muW i d.1)) (s.u FA.alpha d.1) d.2)
        + ∑ j : Fin P.N, dotMsg (wrap0MsgX (faMsgY P s (i, j)) (s.u FA.tau ())) (s.u FA.x j) := by
  funext k
  change GIx (Fin P.D) at k
  have e : (faNet P).newPhi FA.w s i k
      = 1 * ((ardPhi (fun d : Fin P.D × Fin 4 => wrap0 (fixed0 (P.muW i d.1)) (s.u FA.alpha d.1) d.2) k + 0)
        + ∑ c : FA, ∑ k', (faNet P).back c k' FA.w s.u ((faNet P).message c k' s.u) i k) := rfl
  rw [e, fa_sum]
  have h0 : ∑ k', (faNet P).back FA.alpha k' FA.w s.u ((faNet P).message FA.alpha k' s.u) i k = 0 :=
    Finset.sum_eq_zero fun _ _ => rfl
  have h1 : ∑ k', (faNet P).back FA.w k' FA.w s.u ((faNet P).message FA.w k' s.u) i k = 0 :=
    Finset.sum_eq_zero fun _ _ => rfl
  have h2 : ∑ k', (faNet P).back FA.x k' FA.w s.u ((faNet P).message FA.x k' s.u) i k = 0 :=
    Finset.sum_eq_zero fun _ _ => rfl
  have h3 : ∑ k', (faNet P).back FA.tau k' FA.w s.u ((faNet P).message FA.tau k' s.u) i k = 0 :=
    Finset.sum_eq_zero fun _ _ => rfl
  have h4 : ∑ k', (faNet P).back FA.y k' FA.w s.u ((faNet P).message FA.y k' s.u) i k
      = (∑ j : Fin P.N, dotMsg (wrap0MsgX (faMsgY P s (i, j)) (s.u FA.tau ())) (s.u FA.x j)) k :=
    Fintype.sum_unique (ι := Unit) _
  rw [h0, h1, h2, h3, h4, Pi.add_apply]
  ring

theorem fa_new_tau (s : (faNet P).State) :
    (faNet P).newPhi FA.tau s ()
      = ![-P.bt, P.at'] + ∑ p, wrap0MsgT (faMsgY P s p) (dotMoments (s.u FA.w p.1) (s.u FA.x p.2)) := by
  funext k
  change Fin 2 at k
  have e : (faNet P).newPhi FA.tau s () k
      = 1 * ((gammaPhi (gammaPriorFixed P.at') (gammaFixed P.bt) k + 0)
        + ∑ c : FA, ∑ k', (faNet P).back c k' FA.tau s.u ((faNet P).message c k' s.u) () k) := rfl
  rw [e, fa_sum]
  have h0 : ∑ k', (faNet P).back FA.alpha k' FA.tau s.u ((faNet P).message FA.alpha k' s.u) () k = 0 :=
    Finset.sum_eq_zero fun _ _ => rfl
  have h1 : ∑ k', (faNet P).back FA.w k' FA.tau s.u ((faNet P).message FA.w k' s.u) () k = 0 :=
    Finset.sum_eq_zero fun _ _ => rfl
  have h2 : ∑ k', (faNet P).back FA.x k' FA.tau s.u ((faNet P).message FA.x k' s.u) () k = 0 :=
    Finset.sum_eq_zero fun _ _ => rfl
  have h3 : ∑ k', (faNet P).back FA.tau k' FA.tau s.u ((faNet P).message FA.tau k' s.u) () k = 0 :=
    Finset.sum_eq_zero fun _ _ => rfl
  have h4 : ∑ k', (faNet P).back FA.y k' FA.tau s.u ((faNet P).message FA.y k' s.u) () k
      = (∑ p, wrap0MsgT (faMsgY P s p) (dotMoments (s.u FA.w p.1) (s.u FA.x p.2))) k :=
    Fintype.sum_unique (ι := Unit) _
  have h5 : gammaPhi (gammaPriorFixed P.at') (gammaFixed P.bt) = ![-P.bt, P.at'] := by
    simp [gammaPhi, gammaPriorFixed, gammaFixed]
  rw [h0, h1, h2, h3, h4, h5, Pi.add_apply]
  ring

theorem fa_new_alpha (s : (faNet P).State) (d : Fin P.D) :
    (faNet P).newPhi FA.alpha s d
      = ![-P.b0 d, P.a0 d] + ∑ i : Fin P.M, wrap0MsgT
          (fun k => if faMask P .w i = true then ardMsg (s.u FA.w i) (d, k) else 0) (fixed0 (P.muW i d)) := by
  funext k
  change Fin 2 at k
  have e : (faNet P).newPhi FA.alpha s d k
      = 1 * ((gammaPhi (gammaPriorFixed (P.a0 d)) (gammaFixed (P.b0 d)) k + 0)
        + ∑ c : FA, ∑ k', (faNet P).back c k' FA.alpha s.u ((faNet P).message c k' s.u) d k) := rfl
  rw [e, fa_sum]
  have h0 : ∑ k', (faNet P).back FA.alpha k' FA.alpha s.u ((faNet P).message FA.alpha k' s.u) d k = 0 :=
    Finset.sum_eq_zero fun _ _ => rfl
  have h2 : ∑ k', (faNet P).back FA.x k' FA.alpha s.u ((faNet P).message FA.x k' s.u) d k = 0 :=
    Finset.sum_eq_zero fun _ _ => rfl
  have h3 : ∑ k', (faNet P).back FA.tau k' FA.alpha s.u ((faNet P).message FA.tau k' s.u) d k = 0 :=
    Finset.sum_eq_zero fun _ _ => rfl
  have h4 : ∑ k', (faNet P).back FA.y k' FA.alpha s.u ((faNet P).message FA.y k' s.u) d k = 0 :=
    Finset.sum_eq_zero fun _ _ => rfl
  have h1 : ∑ k', (faNet P).back FA.w k' FA.alpha s.u ((faNet P).message FA.w k' s.u) d k
      = (∑ i : Fin P.M, wrap0MsgT
          (fun k => if faMask P .w i = true then ardMsg (s.u FA.w i) (d, k) else 0) (fixed0 (P.muW i d))) k :=
    Fintype.sum_unique (ι := Unit) _
  have h5 : gammaPhi (gammaPriorFixed (P.a0 d)) (gammaFixed (P.b0 d)) = ![-P.b0 d, P.a0 d] := by
    simp [gammaPhi, gammaPriorFixed, gammaFixed]
  rw [h0, h1, h2, h3, h4, h5, Pi.add_apply]
  ring

/-! ### the new parameters are valid -/

section
variable {ι : Type*} [Fintype ι]

theorem frob_nonneg {A B : Matrix ι ι ℝ} (hA : A.PosSemidef) (hB : B.PosSemidef) : 0 ≤ frob A B := by
  have h := (hA.hadamard hB).dotProduct_mulVec_nonneg (fun _ => (1 : ℝ))
  simpa [frob, dotProduct, mulVec, hadamard_apply] using h

/-- what the moments of a Gaussian satisfy: the second moment is a covariance plus the square of the mean -/
def SecondMoment (u : GIx ι → ℝ) : Prop := ∃ C : Matrix ι ι ℝ, C.PosSemidef ∧ g1 u = C + vecMulVec (g0 u) (g0 u)

theorem posSemidef_outer (x : ι → ℝ) : (vecMulVec x x).PosSemidef := by
  have := posSemidef_vecMulVec_self_star x
  rwa [star_trivial] at this

theorem secondMoment_gaussian [DecidableEq ι] (phi : GIx ι → ℝ) (h : ((-2 : ℝ) • g1 phi).PosDef) :
    SecondMoment (gaussianMoments phi) :=
  ⟨((-2 : ℝ) • g1 phi)⁻¹, h.inv.posSemidef, rfl⟩

theorem SecondMoment.posSemidef {u : GIx ι → ℝ} (h : SecondMoment u) : (g1 u).PosSemidef := by
  obtain ⟨C, hC, e⟩ := h
  rw [e]
  exact hC.add (posSemidef_outer _)

/-- the variance of an inner product is not negative -/
theorem dotMoments_variance {w x : GIx ι → ℝ} (hw : SecondMoment w) (hx : SecondMoment x) :
    dotMoments w x 0 * dotMoments w x 0 ≤ dotMoments w x 1 := by
  obtain ⟨C, hC, e⟩ := hw
  obtain ⟨E, hE, e'⟩ := hx
  have h1 : dotMoments w x 1 = frob (g1 w) (g1 x) := rfl
  have h2 : dotMoments w x 0 = g0 w ⬝ᵥ g0 x := rfl
  have p1 := frob_nonneg hC hE
  have p2 := frob_nonneg hC (posSemidef_outer (g0 x))
  have p3 := frob_nonneg (posSemidef_outer (g0 w)) hE
  have p4 : frob (vecMulVec (g0 w) (g0 w)) (vecMulVec (g0 x) (g0 x)) = (g0 w ⬝ᵥ g0 x) * (g0 w ⬝ᵥ g0 x) := by
    rw [frob_outer, vecMulVec_mulVec, dotProduct_smul]
    rw [dotProduct_comm (g0 x) (g0 w)]
    rfl
  have ec : frob (g1 w) (g1 x) = frob C E + frob C (vecMulVec (g0 x) (g0 x))
      + (frob (vecMulVec (g0 w) (g0 w)) E + frob (vecMulVec (g0 w) (g0 w)) (vecMulVec (g0 x) (g0 x))) := by
    rw [e, e', frob_add, frob_comm C, frob_comm (vecMulVec (g0 w) (g0 w)) (E + _), frob_add, frob_add, frob_comm E,
      frob_comm (vecMulVec (g0 x) (g0 x)) C, frob_comm E, frob_comm (vecMulVec (g0 x) (g0 x)) (vecMulVec (g0 w) (g0 w))]
  rw [h1, h2, ec, p4]
  linarith

end

/-- The states which the theorem is about: the observed elements of `Y` have the moments of the data; all other elements
have some distribution of their family, with its moments. -/
def Spec.FAState (data : Fin P.M → Fin P.N → ℝ) (s : (faNet P).State) : Prop :=
  (∀ n, Consistent (faNet P) (faDom P) n s) ∧
    ∀ i j, P.mask i j = true → s.u FA.y (i, j) = ![data i j, data i j * data i j]

/-- positive hyperparameters -/
def Spec.FAValid : Prop :=
  (∀ d, 0 < P.a0 d) ∧ (∀ d, 0 < P.b0 d) ∧ (∀ j d, 0 < P.alphaX j d) ∧ 0 < P.at' ∧ 0 < P.bt

/-- a positive diagonal plus non-negative multiples of second moments -/
theorem posDef_new {ι A : Type*} [Fintype ι] [DecidableEq ι] [Fintype A] (v : ι × Fin 4 → ℝ) (hv : ∀ i, 0 < v (i, 2))
    (m : A → Fin 2 → ℝ) (hm : ∀ a, m a 1 ≤ 0) (u : A → GIx ι → ℝ) (hu : ∀ a, SecondMoment (u a)) :
    ((-2 : ℝ) • g1 (ardPhi v + ∑ a, dotMsg (m a) (u a))).PosDef := by
  have e : (-2 : ℝ) • g1 (ardPhi v + ∑ a, dotMsg (m a) (u a))
      = diagonal (fun i => v (i, 2)) + ∑ a, (-2 * m a 1) • g1 (u a) := by
    ext i j
    have h1 : g1 (ardPhi v + ∑ a, dotMsg (m a) (u a)) i j
        = diagonal (fun i => -0.5 * v (i, 2)) i j + ∑ a, m a 1 * g1 (u a) i j := by
      change ardPhi v (.inr (i, j)) + (∑ a, dotMsg (m a) (u a)) (.inr (i, j)) = _
      rw [Finset.sum_apply]
      rfl
    rw [Matrix.smul_apply, h1, Matrix.add_apply, Matrix.sum_apply, smul_eq_mul, mul_add, Finset.mul_sum]
    congr 1
    · rcases eq_or_ne i j with rfl | hne
      · rw [diagonal_apply_eq, diagonal_apply_eq]; ring
      · rw [diagonal_apply_ne _ hne, diagonal_apply_ne _ hne, mul_zero]
    · exact Finset.sum_congr rfl fun a _ => by rw [Matrix.smul_apply, smul_eq_mul]; ring
  rw [e]
  refine (PosDef.diagonal hv).add_posSemidef ?_
  exact posSemidef_sum _ fun a _ => (hu a).posSemidef.smul (by have := hm a; linarith)

theorem fa_tau_pos (s : (faNet P).State) (hs : ∀ n, Consistent (faNet P) (faDom P) n s) :
    0 < s.u FA.tau () (0 : Fin 2) := by
  obtain ⟨dt, ut, -⟩ := hs FA.tau () rfl
  have ut' : s.u FA.tau () = gammaMoments (s.phi FA.tau ()) := ut
  rw [ut']
  exact div_pos dt.2 (neg_pos.2 dt.1)

theorem fa_msg_prec (s : (faNet P).State) (ht : 0 ≤ s.u FA.tau () (0 : Fin 2)) (p : Fin P.M × Fin P.N) :
    wrap0MsgX (faMsgY P s p) (s.u FA.tau ()) 1 ≤ 0 := by
  have e : wrap0MsgX (faMsgY P s p) (s.u FA.tau ()) 1 = faMsgY P s p 1 * s.u FA.tau () (0 : Fin 2) := rfl
  rw [e]
  refine mul_nonpos_of_nonpos_of_nonneg ?_ ht
  unfold faMsgY
  split
  · have : ard0Msg (s.u FA.y p) 1 = -0.5 := rfl
    rw [this]; norm_num
  · exact le_refl _

theorem fa_second_w (s : (faNet P).State) (hs : ∀ n, Consistent (faNet P) (faDom P) n s) (i : Fin P.M) :
    SecondMoment (ι := Fin P.D) (s.u FA.w i) := by
  obtain ⟨d, e, -⟩ := hs FA.w i rfl
  have e' : s.u FA.w i = gaussianMoments (s.phi FA.w i) := e
  rw [e']
  exact secondMoment_gaussian _ d

theorem fa_second_x (s : (faNet P).State) (hs : ∀ n, Consistent (faNet P) (faDom P) n s) (j : Fin P.N) :
    SecondMoment (ι := Fin P.D) (s.u FA.x j) := by
  obtain ⟨d, e, -⟩ := hs FA.x j rfl
  have e' : s.u FA.x j = gaussianMoments (s.phi FA.x j) := e
  rw [e']
  exact secondMoment_gaussian _ d

theorem fa_new_y (s : (faNet P).State) (q : Fin P.M × Fin P.N) :
    (faNet P).newPhi FA.y s q (1 : Fin 2) = -0.5 * (1 * s.u FA.tau () (0 : Fin 2)) := by
  have e : (faNet P).newPhi FA.y s q (1 : Fin 2)
      = 1 * ((-0.5 * (1 * s.u FA.tau () (0 : Fin 2)) + 0)
        + ∑ c : FA, ∑ k', (faNet P).back c k' FA.y s.u ((faNet P).message c k' s.u) q (1 : Fin 2)) := rfl
  have h : ∑ c : FA, ∑ k', (faNet P).back c k' FA.y s.u ((faNet P).message c k' s.u) q (1 : Fin 2) = 0 :=
    Finset.sum_eq_zero fun c _ => Finset.sum_eq_zero fun _ _ => by cases c <;> rfl
  rw [e, h]
  ring

theorem gamma_new {A : Type*} [Fintype A] {a b : ℝ} (hb : 0 < b) (ha : 0 < a) (f : A → Fin 2 → ℝ)
    (h0 : ∀ i, f i 0 ≤ 0) (h1 : ∀ i, 0 ≤ f i 1) :
    (![-b, a] + ∑ i, f i) ∈ {phi : Fin 2 → ℝ | phi 0 < 0 ∧ 0 < phi 1} := by
  simp only [Set.mem_setOf_eq, Pi.add_apply, Finset.sum_apply, Matrix.cons_val]
  have := Finset.sum_nonpos fun i (_ : i ∈ Finset.univ) => h0 i
  have := Finset.sum_nonneg fun i (_ : i ∈ Finset.univ) => h1 i
  constructor <;> linarith

theorem wrapT_nonpos (b : Bool) (x : Fin 2 → ℝ) (m : Fin 4 → ℝ) (h : b = true → m 0 * x 0 + m 1 * x 1 + m 2 ≤ 0) :
    wrap0MsgT (fun k => if b = true then m k else 0) x 0 ≤ 0 := by
  cases b
  · simp [wrap0MsgT]
  · simpa [wrap0MsgT] using h rfl

theorem wrapT_one (b : Bool) (x : Fin 2 → ℝ) (m : Fin 4 → ℝ) (h : 0 ≤ m 3) :
    0 ≤ wrap0MsgT (fun k => if b = true then m k else 0) x 1 := by
  cases b <;> simp [wrap0MsgT, h]

/-- minus half an expected square -/
theorem square_msg (x y v c : ℝ) (hv : 0 ≤ v) (hc : 0 ≤ c) :
    x * y + -0.5 * (y * y + c) + -0.5 * (v + x * x) ≤ 0 := by
  nlinarith [sq_nonneg (x - y)]

theorem fa_valid (data : Fin P.M → Fin P.N → ℝ) (hP : FAValid P) (s : (faNet P).State)
    (hs : FAState P data s) (n : FA) (q : faPlate P n) (ho : (faNet P).observed n q = false) :
    (faNet P).newPhi n s q ∈ faDom P n := by
  obtain ⟨hc, hy⟩ := hs
  obtain ⟨ha0, hb0, hax, hat, hbt⟩ := hP
  have ht := (fa_tau_pos P s hc).le
  cases n
  · rw [show (faNet P).newPhi FA.alpha s q = _ from fa_new_alpha P s q]
    refine gamma_new (hb0 q) (ha0 q) _ (fun i => ?_) fun i => ?_
    · refine wrapT_nonpos _ _ (ardMsg (s.u FA.w i) ⟨q, ·⟩) fun _ => ?_
      obtain ⟨C, hC, e⟩ := fa_second_w P s hc i
      have e1 : g1 (ι := Fin P.D) (s.u FA.w i) q q
          = C q q + g0 (ι := Fin P.D) (s.u FA.w i) q * g0 (ι := Fin P.D) (s.u FA.w i) q := by
        rw [e]; rfl
      have hq : 0 ≤ C q q := hC.diag_nonneg
      have := square_msg (g0 (ι := Fin P.D) (s.u FA.w i) q) (P.muW i q) (C q q) 0 hq (le_refl 0)
      rw [← e1] at this
      change g0 (ι := Fin P.D) (s.u FA.w i) q * P.muW i q + -0.5 * (P.muW i q * P.muW i q)
        + -0.5 * g1 (ι := Fin P.D) (s.u FA.w i) q q ≤ 0
      linarith
    · exact wrapT_one _ _ (ardMsg (s.u FA.w i) ⟨q, ·⟩) (by change (0 : ℝ) ≤ 0.5; norm_num)
  · rw [show (faNet P).newPhi FA.w s q = _ from fa_new_w P s q]
    refine posDef_new _ (fun d => ?_) _ (fun j => fa_msg_prec P s ht (q, j)) _ (fa_second_x P s hc)
    obtain ⟨da, ea, -⟩ := hc FA.alpha d rfl
    have ea' : s.u FA.alpha d = gammaMoments (s.phi FA.alpha d) := ea
    change 0 < 1 * s.u FA.alpha d (0 : Fin 2)
    rw [one_mul, ea']
    exact div_pos da.2 (neg_pos.2 da.1)
  · rw [show (faNet P).newPhi FA.x s q = _ from fa_new_x P s q]
    refine posDef_new _ (fun d => ?_) _ (fun i => fa_msg_prec P s ht (i, q)) _ (fa_second_w P s hc)
    change 0 < 1 * P.alphaX q d
    rw [one_mul]
    exact hax q d
  · rw [show (faNet P).newPhi FA.tau s q = _ from fa_new_tau P s]
    refine gamma_new hbt hat _ (fun p => ?_) fun p => ?_
    · refine wrapT_nonpos (P.mask p.1 p.2) _ (ard0Msg (s.u FA.y p)) fun hm => ?_
      have h := dotMoments_variance (fa_second_w P s hc p.1) (fa_second_x P s hc p.2)
      have e : s.u FA.y p = (![data p.1 p.2, data p.1 p.2 * data p.1 p.2] : Fin 2 → ℝ) := hy p.1 p.2 hm
      rw [e]
      change data p.1 p.2 * dotMoments (ι := Fin P.D) (s.u FA.w p.1) (s.u FA.x p.2) 0
        + -0.5 * dotMoments (ι := Fin P.D) (s.u FA.w p.1) (s.u FA.x p.2) 1 + -0.5 * (data p.1 p.2 * data p.1 p.2) ≤ 0
      have := square_msg (data p.1 p.2) (dotMoments (ι := Fin P.D) (s.u FA.w p.1) (s.u FA.x p.2) 0) 0
        (dotMoments (ι := Fin P.D) (s.u FA.w p.1) (s.u FA.x p.2) 1
          - dotMoments (ι := Fin P.D) (s.u FA.w p.1) (s.u FA.x p.2) 0
            * dotMoments (ι := Fin P.D) (s.u FA.w p.1) (s.u FA.x p.2) 0) (le_refl 0) (by linarith)
      linarith
    · exact wrapT_one _ _ (ard0Msg (s.u FA.y p)) (by change (0 : ℝ) ≤ 0.5; norm_num)
  · have hpos := fa_tau_pos P s hc
    change (faNet P).newPhi FA.y s q (1 : Fin 2) < 0
    rw [show (faNet P).newPhi FA.y s q (1 : Fin 2) = -0.5 * (1 * s.u FA.tau () (0 : Fin 2)) from fa_new_y P s q]
    linarith

theorem fa_update (data : Fin P.M → Fin P.N → ℝ) (hP : FAValid P) (s : (faNet P).State) (hs : FAState P data s) (n : FA) :
    FAState P data ((faNet P).update n s) := by
  refine ⟨consistent_update (faNet P) (faDom P) n s (fa_valid P data hP s hs n) hs.1, fun i j hm => ?_⟩
  rw [← hs.2 i j hm]
  cases n
  case y => exact if_neg (by rw [show (faNet P).observed FA.y (i, j) = true from hm]; simp)
  all_goals rfl

/-- **C23** for factor analysis with missing values: for all data, masks, hyperparameters, all current distributions and
all sequences of updates, the lower bound never decreases. -/
theorem C23_factor_model (data : Fin P.M → Fin P.N → ℝ) (hP : FAValid P) (s : (faNet P).State)
    (hs : FAState P data s) (ns : List FA) :
    (faNet P).bound s ≤ (faNet P).bound (ns.foldl (fun s n => (faNet P).update n s) s) ∧
    FAState P data (ns.foldl (fun s n => (faNet P).update n s) s) := by
  induction ns generalizing s with
  | nil => exact ⟨le_refl _, hs⟩
  | cons n ns ih =>
    have hv := fa_valid P data hP s hs n
    have h1 : (faNet P).bound s ≤ (faNet P).bound ((faNet P).update n s) :=
      C23_update (faNet P) (faDom P) (fa_sound P) n s (fun _ => rfl) (hs.1 n) hv
    obtain ⟨h3, h4⟩ := ih _ (fa_update P data hP s hs n)
    exact ⟨h1.trans h3, h4⟩

/-- A state to start from: unit Gaussians with the given means and `Gamma(1, 1)`. -/
noncomputable def faInit (data : Fin P.M → Fin P.N → ℝ) (w : Fin P.M → Fin P.D → ℝ) (x : Fin P.N → Fin P.D → ℝ) :
    (faNet P).State where
  phi := fun n => match n with
    | .alpha => fun _ => (![-1, 1] : Fin 2 → ℝ)
    | .w => fun i => mkG (w i) (-(1 / 2 : ℝ) • (1 : Matrix (Fin P.D) (Fin P.D) ℝ))
    | .x => fun j => mkG (x j) (-(1 / 2 : ℝ) • (1 : Matrix (Fin P.D) (Fin P.D) ℝ))
    | .tau => fun _ => (![-1, 1] : Fin 2 → ℝ)
    | .y => fun _ => (![0, -1 / 2] : Fin 2 → ℝ)
  u := fun n => match n with
    | .alpha => fun _ => gammaMoments ![-1, 1]
    | .w => fun i => gaussianMoments (mkG (w i) (-(1 / 2 : ℝ) • (1 : Matrix (Fin P.D) (Fin P.D) ℝ)))
    | .x => fun j => gaussianMoments (mkG (x j) (-(1 / 2 : ℝ) • (1 : Matrix (Fin P.D) (Fin P.D) ℝ)))
    | .tau => fun _ => gammaMoments ![-1, 1]
    | .y => fun q => if P.mask q.1 q.2 = true then (![data q.1 q.2, data q.1 q.2 * data q.1 q.2] : Fin 2 → ℝ)
        else ardMoments0 ![0, -1 / 2]
  g := fun n => match n with
    | .alpha => fun _ => gammaCgf ![-1, 1]
    | .w => fun i => gaussianCgf (mkG (w i) (-(1 / 2 : ℝ) • (1 : Matrix (Fin P.D) (Fin P.D) ℝ)))
    | .x => fun j => gaussianCgf (mkG (x j) (-(1 / 2 : ℝ) • (1 : Matrix (Fin P.D) (Fin P.D) ℝ)))
    | .tau => fun _ => gammaCgf ![-1, 1]
    | .y => fun _ => ardCgf0 ![0, -1 / 2]
  f := fun _ _ => 0

theorem faInit_state (data : Fin P.M → Fin P.N → ℝ) (w : Fin P.M → Fin P.D → ℝ) (x : Fin P.N → Fin P.D → ℝ) :
    FAState P data (faInit P data w x) := by
  have h1 : ((![-1, 1] : Fin 2 → ℝ)) 0 < 0 ∧ 0 < ((![-1, 1] : Fin 2 → ℝ)) 1 := by norm_num
  have h2 : ((-2 : ℝ) • (-(1 / 2 : ℝ) • (1 : Matrix (Fin P.D) (Fin P.D) ℝ))).PosDef := by
    rw [smul_smul]
    norm_num
    exact PosDef.one
  refine ⟨?_, fun i j hm => if_pos hm⟩
  intro n q ho
  change FA at n
  cases n
  · exact ⟨h1, rfl, rfl⟩
  · exact ⟨h2, rfl, rfl⟩
  · exact ⟨h2, rfl, rfl⟩
  · exact ⟨h1, rfl, rfl⟩
  · refine ⟨?_, ?_, rfl⟩
    · change (![0, -1 / 2] : Fin 2 → ℝ) 1 < 0
      norm_num
    · exact if_neg (by rw [show P.mask q.1 q.2 = false from ho]; simp)

/-- three rows, two columns, two factors, one value missing -/
def exFA : FAParams where
  M := 3
  N := 2
  D := 2
  a0 := fun _ => 1
  b0 := fun _ => 1
  muW := fun _ _ => 0
  muX := fun _ _ => 0
  alphaX := fun _ _ => 1
  at' := 1
  bt := 1
  mask := fun i j => !(decide (i = 0) && decide (j = 0))

theorem exFA_valid : FAValid exFA :=
  ⟨fun _ => one_pos, fun _ => one_pos, fun _ _ => one_pos, one_pos, one_pos⟩

example : (faNet exFA).bound (faInit exFA (fun i j => i + j) (fun _ _ => 1) fun _ _ => 0)
    ≤ (faNet exFA).bound ((faNet exFA).update FA.tau ((faNet exFA).update FA.x
      (faInit exFA (fun i j => i + j) (fun _ _ => 1) fun _ _ => 0))) :=
  (C23_factor_model exFA (fun i j => i + j) exFA_valid _ (faInit_state exFA _ _ _) [FA.x, FA.tau]).1

end Verif
