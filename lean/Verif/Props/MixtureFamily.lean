import Verif.Model.MixtureFamily
import Verif.Props.Families

/-!
# C20, C23: the mixture of a sound family is sound
-/

namespace Verif
open Spec

section
variable {F : Family} {κ : Type} [Fintype κ]

omit [Fintype κ] in
theorem mixRaw_update_none (pa : ∀ k, MixSlot F κ k → ℝ) (v : κ → ℝ) (c : κ) :
    mixRaw (Function.update pa none v) c = mixRaw pa c := by
  funext k j
  exact congrFun (Function.update_of_ne (Option.some_ne_none k) v pa) (j, c)

omit [Fintype κ] in
theorem mixRaw_update_some (pa : ∀ k, MixSlot F κ k → ℝ) (k : F.K) (v : F.P k × κ → ℝ) (c : κ) :
    mixRaw (Function.update pa (some k) v) c = Function.update (mixRaw pa c) k (fun j => v (j, c)) := by
  funext k' j
  by_cases h : k' = k
  · subst h
    rw [Function.update_self]
    exact congrFun (Function.update_self (some k') v pa) (j, c)
  · have h' : (some k' : Option F.K) ≠ some k := fun e => h (Option.some.inj e)
    rw [Function.update_of_ne h]
    exact congrFun (Function.update_of_ne h' v pa) (j, c)

/-- the expected log-density of a mixture is the weighed expected log-density of its clusters -/
theorem mix_logpdf (u : F.I → ℝ) (pa : ∀ k, MixSlot F κ k → ℝ) (f : ℝ) :
    logpdf u (mixFPhi F κ pa) (mixFCgf F κ pa) f
      = (∑ c : κ, (pa none : κ → ℝ) c * logpdf u (F.phiP (mixRaw pa c)) (F.cgfP (mixRaw pa c)) 0) + f := by
  rw [logpdf_eq]
  simp only [logpdf_eq, add_zero]
  congr 1
  simp only [dotProduct, mixFPhi, mixFCgf, Finset.sum_mul]
  rw [Finset.sum_comm, ← Finset.sum_add_distrib]
  refine Finset.sum_congr rfl fun c _ => ?_
  simp only [mul_add, Finset.mul_sum]
  congr 1
  exact Finset.sum_congr rfl fun i _ => by ring

theorem C20_mixture_selector (u : F.I → ℝ) (pa : ∀ k, MixSlot F κ k → ℝ) (f : ℝ) :
    IsCoefficient (fun v : κ → ℝ => logpdf u (mixFPhi F κ (Function.update pa none v))
      (mixFCgf F κ (Function.update pa none v)) f) (mixFMsgZ F κ u pa) := by
  refine ⟨f, fun v => ?_⟩
  beta_reduce
  rw [mix_logpdf]
  congr 1
  refine Finset.sum_congr rfl fun c _ => ?_
  rw [mixRaw_update_none, logpdf_eq, add_zero, mixFMsgZ, mul_comm, add_comm (F.cgfP _)]
  exact congrArg (_ * ·) (congrFun (Function.update_self none v pa) c)

theorem C20_mixture_parameter (k : F.K)
    (h : ∀ u pa f, IsCoefficient
      (fun v => logpdf u (F.phiP (Function.update pa k v)) (F.cgfP (Function.update pa k v)) f) (F.msg k u pa))
    (u : F.I → ℝ) (pa : ∀ k, MixSlot F κ k → ℝ) (f : ℝ) :
    IsCoefficient (fun v : F.P k × κ → ℝ => logpdf u (mixFPhi F κ (Function.update pa (some k) v))
      (mixFCgf F κ (Function.update pa (some k) v)) f) (mixFMsg F κ k u pa) := by
  choose r hr using fun c => h u (mixRaw pa c) 0
  refine ⟨(∑ c : κ, (pa none : κ → ℝ) c * r c) + f, fun v => ?_⟩
  beta_reduce
  rw [mix_logpdf, ← add_assoc]
  congr 1
  have e : ∀ c : κ, (Function.update pa (some k) v none : κ → ℝ) c = (pa none : κ → ℝ) c := fun c =>
    congrFun (Function.update_of_ne (Option.some_ne_none k).symm v pa) c
  rw [dotProduct, Fintype.sum_prod_type_right, ← Finset.sum_add_distrib]
  refine Finset.sum_congr rfl fun c _ => ?_
  have hc := hr c (fun j => v (j, c))
  beta_reduce at hc
  rw [mixRaw_update_some, e, hc, mul_add]
  congr 1
  simp only [mixFMsg]
  rw [dotProduct, Finset.mul_sum]
  exact Finset.sum_congr rfl fun j _ => by ring

/-- The mixture of any sound distribution, with any number of clusters, is sound. -/
theorem C23_mixture_sound {dom : Set (F.I → ℝ)} (h : FamilySound F dom) : FamilySound (mixtureFamily F κ) dom where
  conj := fun k u pa f => match k with
    | none => C20_mixture_selector (F := F) (κ := κ) u pa f
    | some k => C20_mixture_parameter (F := F) (κ := κ) k (h.conj k) u pa f
  tangent := h.tangent

end

/-- a mixture of three Gaussians -/
example : FamilySound (mixtureFamily (gaussianFamily (Fin 2)) (Fin 3))
    {phi : GIx (Fin 2) → ℝ | ((-2 : ℝ) • g1 phi).PosDef} := C23_mixture_sound (C23_gaussian_sound (Fin 2))

/-- a mixture of mixtures -/
example : FamilySound (mixtureFamily (mixtureFamily gammaFamily (Fin 2)) (Fin 3))
    {phi : Fin 2 → ℝ | phi 0 < 0 ∧ 0 < phi 1} := C23_mixture_sound (C23_mixture_sound C23_gamma_sound)

/-- With a selector which is certain of a cluster, the mixture is that cluster. -/
theorem C23_mixture_certain (F : Family) (κ : Type) [Fintype κ] [DecidableEq κ] (pa : ∀ k, MixSlot F κ k → ℝ) (c : κ)
    (h : ∀ c' : κ, (pa none : κ → ℝ) c' = if c' = c then (1 : ℝ) else 0) :
    mixFPhi F κ pa = F.phiP (mixRaw pa c) ∧ mixFCgf F κ pa = F.cgfP (mixRaw pa c) := by
  constructor
  · funext i
    exact (Finset.sum_eq_single c (fun b _ hb => by rw [h, if_neg hb, zero_mul]) (by simp)).trans (by rw [h]; simp)
  · exact (Finset.sum_eq_single c (fun b _ hb => by rw [h, if_neg hb, zero_mul]) (by simp)).trans (by rw [h]; simp)

end Verif
