import Verif.Model.MaximumLikelihood
import Verif.Spec.Gradient
import Verif.Lemmas.Cholesky
import Verif.Props.RotationGradient

/-!
# C75: the gradient of maximum likelihood nodes is the gradient of the lower bound
-/

namespace Verif
open Spec Matrix

variable {ι : Type} [Fintype ι]

/-- the parents of every node were constructed before it -/
def MLOrdered (net : ℕ → MLNode ι) (N : ℕ) : Prop :=
  ∀ j < N, ∀ ps f g, net j = .function ps f g → ∀ p ∈ ps, p < j

omit [Fintype ι] in
theorem mlMessageTo_congr {net : ℕ → MLNode ι} {N : ℕ} (ho : MLOrdered net N) (value : ℕ → ι → ℝ) {j v : ℕ} (hj : j < N)
    {m m' : ι → ℝ} (h : v < j → m = m') : mlMessageTo net value j v m = mlMessageTo net value j v m' := by
  unfold mlMessageTo
  rcases e : net j with _ | ⟨ps, f, g⟩
  · rfl
  · refine Finset.sum_congr rfl fun k _ => ?_
    split_ifs with hk
    · rw [h (hk ▸ ho j hj ps f g e _ (List.getElem_mem _))]
    · rfl

omit [Fintype ι] in
/-- the depth of the recursion does not matter if it is enough for the nodes after `v` -/
theorem mlMessage_depth {net : ℕ → MLNode ι} {N : ℕ} (ho : MLOrdered net N) (value term : ℕ → ι → ℝ) (d : ℕ) :
    ∀ d' v, v < N → N ≤ v + d → N ≤ v + d' →
      mlMessage net N value term d v = mlMessage net N value term d' v := by
  induction d with
  | zero => intro d' v hv h; omega
  | succ d ih =>
    intro d' v hv h h'
    obtain ⟨d', rfl⟩ : ∃ e, d' = e + 1 := ⟨d' - 1, by omega⟩
    simp only [mlMessage]
    congr 1
    refine Finset.sum_congr rfl fun j hj => ?_
    have hj' := Finset.mem_range.1 hj
    exact mlMessageTo_congr ho value hj' fun hvj => ih d' j hj' (by omega) (by omega)

omit [Fintype ι] in
theorem mlMessage_fix {net : ℕ → MLNode ι} {N : ℕ} (ho : MLOrdered net N) (value term : ℕ → ι → ℝ) {v : ℕ} (hv : v < N) :
    mlMessage net N value term N v
      = term v + ∑ j ∈ Finset.range N, mlMessageTo net value j v (mlMessage net N value term N j) := by
  rw [mlMessage_depth ho value term N (N + 1) v hv (by omega) (by omega)]
  rfl

theorem dot_mlMessageTo {net : ℕ → MLNode ι} {N : ℕ} (ho : MLOrdered net N) (value w : ℕ → ι → ℝ) {j : ℕ} (hj : j < N)
    (m : ι → ℝ) : ∑ v ∈ Finset.range N, mlMessageTo net value j v m ⬝ᵥ w v
      = match net j with
        | .ml => 0
        | .function ps _ g => ∑ k : Fin ps.length, g k m (fun k => value ps[k]) ⬝ᵥ w ps[k] := by
  unfold mlMessageTo
  rcases e : net j with _ | ⟨ps, f, g⟩
  · exact Finset.sum_eq_zero fun v _ => zero_dotProduct _
  · simp only [sum_dotProduct]
    rw [Finset.sum_comm]
    refine Finset.sum_congr rfl fun k _ => ?_
    rw [Finset.sum_eq_single ps[k]]
    · rw [if_pos rfl]
    · intro v _ hv
      rw [if_neg hv.symm]
      exact zero_dotProduct _
    · intro h
      exact absurd (Finset.mem_range.2 ((ho j hj ps f g e _ (List.getElem_mem _)).trans hj)) h

/-- the values of the nodes along a path of the values of the maximum likelihood nodes -/
theorem mlValue_deriv {net : ℕ → MLNode ι} {N : ℕ} (ho : MLOrdered net N) {x : ℝ → ℕ → ι → ℝ} {x' : ℕ → ι → ℝ} {t : ℝ}
    (hx : ∀ v < N, HasDerivAt (fun s => x s v) (x' v) t)
    (hf : ∀ j < N, ∀ ps f g, net j = .function ps f g → IsGradients f g fun k => mlValue net (x t) ps[k]) :
    ∃ d : ℕ → ι → ℝ, ∀ v < N, HasDerivAt (fun s => mlValue net (x s) v) (d v) t ∧
      match net v with
      | .ml => d v = x' v
      | .function ps _ g => ∀ m, m ⬝ᵥ d v = ∑ k : Fin ps.length, g k m (fun k => mlValue net (x t) ps[k]) ⬝ᵥ d ps[k] := by
  refine ⟨fun v => deriv (fun s => mlValue net (x s) v) t, fun v => ?_⟩
  induction v using Nat.strong_induction_on with
  | _ v ih =>
    intro hv
    rcases e : net v with _ | ⟨ps, f, g⟩
    · have h : (fun s => mlValue net (x s) v) = fun s => x s v := by
        funext s; rw [mlValue, e]
      beta_reduce
      rw [h]
      exact ⟨(hx v hv).differentiableAt.hasDerivAt, (hx v hv).deriv⟩
    · have hp : ∀ k : Fin ps.length, ps[k] < v := fun k => ho v hv ps f g e _ (List.getElem_mem _)
      have h : (fun s => mlValue net (x s) v) = fun s => f fun k : Fin ps.length => mlValue net (x s) ps[k] := by
        funext s
        rw [mlValue, e]
        simp only [hp, dite_true]
      obtain ⟨f', h1, h2⟩ := hf v hv ps f g e
      have h3 : HasDerivAt (fun s => fun k : Fin ps.length => mlValue net (x s) ps[k])
          (fun k => deriv (fun s => mlValue net (x s) ps[k]) t) t :=
        hasDerivAt_pi.2 fun k => (ih _ (hp k) ((hp k).trans hv)).1
      have h4 := h1.comp_hasDerivAt t h3
      beta_reduce
      rw [h]
      refine ⟨h4.differentiableAt.hasDerivAt, fun m => ?_⟩
      have h5 : deriv (fun s => f fun k : Fin ps.length => mlValue net (x s) ps[k]) t
        = f' fun k => deriv (fun s => mlValue net (x s) ps[k]) t := h4.deriv
      rw [h5, h2]

/-- **C75** The gradients of all maximum likelihood nodes together are the gradient of the lower bound without
regularisation: along every differentiable path of their values it changes as they say.  The bound depends on the values of all
nodes through their other children, whose messages are the gradients with respect to these values; the user gives the
functions with their gradients. -/
theorem C75_gradient {net : ℕ → MLNode ι} {N : ℕ} (ho : MLOrdered net N) {x : ℝ → ℕ → ι → ℝ} {x' : ℕ → ι → ℝ} {t : ℝ}
    (hx : ∀ v < N, HasDerivAt (fun s => x s v) (x' v) t)
    (hf : ∀ j < N, ∀ ps f g, net j = .function ps f g → IsGradients f g fun k => mlValue net (x t) ps[k])
    {L : (Fin N → ι → ℝ) → ℝ} {term : ℕ → ι → ℝ}
    (hL : IsGradientOf L (fun v => term v) fun v => mlValue net (x t) v) :
    HasDerivAt (fun s => L fun v => mlValue net (x s) v)
      (∑ v ∈ Finset.range N with (net v).isMl, mlGradient net N (x t) term v ⬝ᵥ x' v) t := by
  obtain ⟨d, hd⟩ := mlValue_deriv ho hx hf
  obtain ⟨L', h1, h2⟩ := hL
  have h3 : HasDerivAt (fun s => fun v : Fin N => mlValue net (x s) v) (fun v : Fin N => d v) t :=
    hasDerivAt_pi.2 fun v => (hd v v.2).1
  have h4 := h1.comp_hasDerivAt t h3
  refine h4.congr_deriv ?_
  rw [h2, Fin.sum_univ_eq_sum_range fun v => term v ⬝ᵥ d v]
  set M := mlGradient net N (x t) term with hM
  have e1 : ∑ v ∈ Finset.range N, M v ⬝ᵥ d v = ∑ v ∈ Finset.range N, term v ⬝ᵥ d v
      + ∑ j ∈ Finset.range N, ∑ v ∈ Finset.range N, mlMessageTo net (mlValue net (x t)) j v (M j) ⬝ᵥ d v := by
    rw [Finset.sum_comm, ← Finset.sum_add_distrib]
    refine Finset.sum_congr rfl fun v hv => ?_
    conv_lhs => rw [hM, mlGradient, mlMessage_fix ho _ _ (Finset.mem_range.1 hv)]
    rw [add_dotProduct, sum_dotProduct]
    rfl
  have e2 : ∑ j ∈ Finset.range N, ∑ v ∈ Finset.range N, mlMessageTo net (mlValue net (x t)) j v (M j) ⬝ᵥ d v
      = ∑ j ∈ Finset.range N, if (net j).isMl then 0 else M j ⬝ᵥ d j := by
    refine Finset.sum_congr rfl fun j hj => ?_
    have hj' := Finset.mem_range.1 hj
    rw [dot_mlMessageTo ho _ _ hj']
    have := (hd j hj').2
    rcases e : net j with _ | ⟨ps, f, g⟩
    · rfl
    · rw [e] at this
      exact (this _).symm
  have e3 : ∑ v ∈ Finset.range N, M v ⬝ᵥ d v = (∑ v ∈ Finset.range N, if (net v).isMl then M v ⬝ᵥ d v else 0)
      + ∑ j ∈ Finset.range N, if (net j).isMl then 0 else M j ⬝ᵥ d j := by
    rw [← Finset.sum_add_distrib]
    refine Finset.sum_congr rfl fun v _ => ?_
    split_ifs <;> simp
  have e4 : (∑ v ∈ Finset.range N with (net v).isMl, M v ⬝ᵥ x' v)
      = ∑ v ∈ Finset.range N, if (net v).isMl then M v ⬝ᵥ d v else 0 := by
    rw [Finset.sum_filter]
    refine Finset.sum_congr rfl fun v hv => ?_
    have := (hd v (Finset.mem_range.1 hv)).2
    rcases e : net v with _ | ⟨ps, f, g⟩
    · rw [e] at this
      rw [this]
    · rfl
  rw [e4]
  linarith

/-- the product of two vectors, with its gradients -/
theorem isGradients_mul (x : Fin 2 → ι → ℝ) :
    IsGradients (fun x : Fin 2 → ι → ℝ => x 0 * x 1) (fun k m x => m * x (1 - k)) x := by
  have h0 : HasFDerivAt (fun x : Fin 2 → ι → ℝ => x 0) (ContinuousLinearMap.proj (R := ℝ) 0) x := hasFDerivAt_apply 0 x
  have h1 : HasFDerivAt (fun x : Fin 2 → ι → ℝ => x 1) (ContinuousLinearMap.proj (R := ℝ) 1) x := hasFDerivAt_apply 1 x
  refine ⟨_, h0.mul h1, fun m w => ?_⟩
  simp only [dotProduct, Fin.sum_univ_two, ← Finset.sum_add_distrib]
  refine Finset.sum_congr rfl fun i _ => ?_
  simp
  ring

/-- `x` and the function `x * x`, of which `x` is twice a parent -/
def squareNet : ℕ → MLNode (Fin 3)
  | 0 => .ml
  | _ + 1 => .function [0, 0] (fun x => x 0 * x 1) fun k m x => m * x (1 - k : Fin 2)

theorem squareNet_value (x : ℕ → Fin 3 → ℝ) : mlValue squareNet x 0 = x 0 ∧ mlValue squareNet x 1 = x 0 * x 0 := by
  have h : mlValue squareNet x 0 = x 0 := by rw [mlValue, squareNet]
  refine ⟨h, ?_⟩
  rw [mlValue, squareNet]
  simp [h]

theorem squareNet_gradient (x term : ℕ → Fin 3 → ℝ) :
    mlGradient squareNet 2 x term 0 = term 0 + (term 1 * x 0 + term 1 * x 0) := by
  simp [mlGradient, mlMessage, Finset.sum_range_succ, mlMessageTo, squareNet, (squareNet_value x).1, Fin.sum_univ_two]
  funext i
  simp

/-- the bound is the sum of the squares; the gradient is `2 x` -/
example (x d : Fin 3 → ℝ) : HasDerivAt (fun s : ℝ => ∑ i, (x i + s * d i) ^ 2) (∑ i, 2 * x i * d i) 0 := by
  have ho : MLOrdered squareNet 2 := by
    intro j hj ps f g h p hp
    rcases j with _ | j
    · cases h
    · cases h
      simp at hp
      omega
  let l : Fin 3 → (Fin 2 → Fin 3 → ℝ) →L[ℝ] ℝ := fun i =>
    (ContinuousLinearMap.proj (R := ℝ) (φ := fun _ : Fin 3 => ℝ) i).comp
      (ContinuousLinearMap.proj (R := ℝ) (φ := fun _ : Fin 2 => Fin 3 → ℝ) 1)
  have h := C75_gradient (t := 0) (x := fun s _ => x + s • d) (x' := fun _ => d) ho
    (fun v _ => by simpa using ((hasDerivAt_id (0 : ℝ)).smul_const d).const_add x)
    (fun j hj ps f g h => by
      rcases j with _ | j
      · cases h
      · cases h
        exact isGradients_mul _)
    (L := fun u => ∑ i, u 1 i) (term := fun v _ => if v = 1 then 1 else 0)
    ⟨∑ i, l i, HasFDerivAt.fun_sum fun i _ => (l i).hasFDerivAt, fun w => by
      simp [Fin.sum_univ_two, dotProduct, l]⟩
  refine (h.congr_of_eventuallyEq (Filter.Eventually.of_forall fun s => ?_)).congr_deriv ?_
  · have := (squareNet_value fun _ => x + s • d).2
    refine Finset.sum_congr rfl fun i _ => ?_
    change _ = mlValue squareNet (fun _ => x + s • d) 1 i
    rw [this]
    simp
    ring
  · rw [Finset.sum_filter, Finset.sum_range_succ, Finset.sum_range_one, squareNet_gradient]
    simp [MLNode.isMl, squareNet, dotProduct]
    refine Finset.sum_congr rfl fun i _ => ?_
    ring

/-- **C75** With regularisation it is not the gradient of the bound: at `x = 1` the contribution of the node itself to the bound
changes, but the gradient is zero. -/
theorem C75_regularization_refuted :
    ∃ (r : (Unit → ℝ) → Unit → ℝ) (x : ℝ → Unit → ℝ) (x' : Unit → ℝ) (d : ℝ), HasDerivAt x x' 0 ∧
      HasDerivAt (fun s => mlContribution (some r) (x s)) d 0 ∧
      d ≠ mlGradient (fun _ => .ml) 1 (fun _ => x 0) (fun _ _ => 0) 0 ⬝ᵥ x' := by
  refine ⟨fun x i => x i ^ 2, fun s _ => 1 + s, fun _ => 1, -2, ?_, ?_, ?_⟩
  · exact hasDerivAt_pi.2 fun _ => (hasDerivAt_id (0 : ℝ)).const_add 1
  · have h := (((hasDerivAt_id (0 : ℝ)).const_add 1).pow 2).neg
    refine (h.congr_of_eventuallyEq (Filter.Eventually.of_forall fun s => ?_)).congr_deriv ?_
    · simp [mlContribution]
    · simp
  · simp [mlGradient, mlMessage, mlMessageTo]

/-- **C75** A maximum likelihood node as the parent of a node that wants Wishart moments: the message is the gradient of what the
message of this node says about the bound. -/
theorem C75_wishart {D : ℕ} {γ U : ℝ → Matrix (Fin D) (Fin D) ℝ} {E : Matrix (Fin D) (Fin D) ℝ} (h : CurveDeriv γ E)
    (hU : ∀ᶠ t in nhds 0, IsChol (γ t) (U t)) (g0 : Matrix (Fin D) (Fin D) ℝ) (g1 : ℝ) :
    HasDerivAt (fun t => ∑ i, ∑ j, g0 i j * γ t i j + g1 * cholLogdet (U t))
      (∑ i, ∑ j, wishartDelta (U 0) g0 g1 i j * E i j) 0 := by
  have h0 : IsChol (γ 0) (U 0) := hU.self_of_nhds
  have d1 : HasDerivAt (fun t => ∑ i, ∑ j, g0 i j * γ t i j) (∑ i, ∑ j, g0 i j * E i j) 0 :=
    HasDerivAt.fun_sum fun i _ => HasDerivAt.fun_sum fun j _ => (h i j).const_mul _
  have d2 := (hasDerivAt_slogdet h h0.posDef.det_pos.ne').const_mul g1
  refine ((d1.add d2).congr_of_eventuallyEq ?_).congr_deriv ?_
  · filter_upwards [hU] with t ht
    simp only [Pi.add_apply]
    rw [ht.logdet, slogdet]
  · rw [wishartDelta, h0.inv, trace_mul_comm, trace]
    simp only [Matrix.add_apply, Matrix.smul_apply, smul_eq_mul, add_mul, Finset.sum_add_distrib, diag_apply, mul_apply, Finset.mul_sum]
    congr 1
    refine Finset.sum_congr rfl fun i _ => Finset.sum_congr rfl fun j _ => ?_
    have hs : ((γ 0)⁻¹)ᵀ = (γ 0)⁻¹ := by
      rw [transpose_nonsing_inv, ← h0.eq]; simp
    have := congrFun (congrFun hs i) j
    rw [transpose_apply] at this
    rw [this]; ring

/-- multiples of the identity -/
example (g0 : Matrix (Fin 2) (Fin 2) ℝ) (g1 : ℝ) :
    HasDerivAt (fun t => ∑ i, ∑ j, g0 i j * ((1 + t) • (1 : Matrix (Fin 2) (Fin 2) ℝ)) i j
        + g1 * cholLogdet (√(1 + t) • (1 : Matrix (Fin 2) (Fin 2) ℝ)))
      (∑ i, ∑ j, wishartDelta (√(1 + 0) • (1 : Matrix (Fin 2) (Fin 2) ℝ)) g0 g1 i j * (1 : Matrix (Fin 2) (Fin 2) ℝ) i j) 0 := by
  refine C75_wishart (γ := fun t => (1 + t) • 1) (U := fun t => √(1 + t) • 1) ?_ ?_ g0 g1
  · intro i j
    have := ((hasDerivAt_id (0 : ℝ)).const_add 1).mul_const ((1 : Matrix (Fin 2) (Fin 2) ℝ) i j)
    simpa using this
  · filter_upwards [lt_mem_nhds (show (-1 : ℝ) < 0 by norm_num)] with t ht
    have h : 0 < 1 + t := by linarith
    refine ⟨fun i j hij => ?_, fun i => ?_, ?_⟩
    · simp [one_apply_ne hij.ne']
    · simpa using Real.sqrt_pos.2 h
    · simp [smul_smul, Real.mul_self_sqrt h.le]

end Verif
