import Verif.Model.Integrated
import Verif.Props.Mixture
import Verif.Props.ChainArrays
import Verif.Props.Concatenate
import Mathlib.Analysis.Convex.SpecificFunctions.Basic
import Mathlib.Analysis.Convex.Jensen

/-!
# C65: the predictive density of a mixture

`P` are the plates of the evaluated points, `K` the number of clusters and `cluster_plate = -(g + 1)`.
-/

namespace Verif
open Spec

theorem le_maxTo (x : Nat → ℝ) (n : Nat) : ∀ t ≤ n, x t ≤ maxTo x n := by
  induction n with
  | zero => intro t ht; rw [Nat.le_zero.1 ht]; exact le_refl _
  | succ n ih =>
    intro t ht
    rcases Nat.lt_or_ge t (n + 1) with h | h
    · exact (ih t (by omega)).trans (le_max_left _ _)
    · rw [show t = n + 1 by omega]; exact le_max_right _ _

theorem maxTo_mem (x : Nat → ℝ) (n : Nat) : ∃ t ≤ n, maxTo x n = x t := by
  induction n with
  | zero => exact ⟨0, le_refl _, rfl⟩
  | succ n ih =>
    obtain ⟨t, ht, h⟩ := ih
    rcases max_cases (maxTo x n) (x (n + 1)) with ⟨h1, _⟩ | ⟨h1, _⟩
    · exact ⟨t, by omega, h1.trans h⟩
    · exact ⟨n + 1, le_refl _, h1⟩

/-- the largest log-density of an element: over the positions along the cluster axis -/
theorem npMaxKeep_at {X m : Arr ℝ} {k : Nat} (h : npMaxKeep X k = .ok m) :
    (∀ j, axisLen m.shape j = if j = k then 1 else axisLen X.shape j) ∧ m.shape.length = X.shape.length ∧
    (∀ c t, m.at (Function.update c k t) = m.at c) ∧
    (∀ c t, t < axisLen X.shape k → X.at (Function.update c k t) ≤ m.at c) ∧
    ∀ c, ∃ t < axisLen X.shape k, X.at (Function.update c k t) = m.at c := by
  unfold npMaxKeep at h
  split at h
  · rename_i hk
    injection h with h
    subst h
    have ax : ∀ j, axisLen (X.shape.set (X.shape.length - 1 - k) 1) j = if j = k then 1 else axisLen X.shape j :=
      fun j => by
      rw [show X.shape.length - 1 - k = X.shape.length - (k + 1) by omega, axisLen_set _ _ _ hk.1]
    have e : ∀ (c : Nat → Nat) t, t < axisLen X.shape k → X.at (Function.update c k t)
        = X.get (Function.update (restrict (X.shape.set (X.shape.length - 1 - k) 1) c) k t) := by
      intro c t ht
      unfold Arr.at
      congr 1
      funext j
      simp only [restrict, ax]
      by_cases hj : j = k
      · subst hj
        simp only [Function.update_self]
        split <;> omega
      · simp only [Function.update_of_ne hj, restrict, ax, hj, if_false]
    refine ⟨ax, by simp, fun c t => ?_, fun c t ht => ?_, fun c => ?_⟩
    · unfold Arr.at
      congr 1
      funext j
      simp only [restrict, ax]
      by_cases hj : j = k
      · simp [hj]
      · simp [hj]
    · rw [e c t ht]
      exact le_maxTo (fun t => X.get (Function.update (restrict (X.shape.set (X.shape.length - 1 - k) 1) c) k t)) _ t (by omega)
    · obtain ⟨t, ht, hm⟩ := maxTo_mem
        (fun t => X.get (Function.update (restrict (X.shape.set (X.shape.length - 1 - k) 1) c) k t)) (axisLen X.shape k - 1)
      refine ⟨t, by omega, ?_⟩
      rw [e c t (by omega)]
      exact hm.symm
  · cases h

theorem npMaxKeep_ok {X : Arr ℝ} {k : Nat} (h : k < X.shape.length) (h0 : axisLen X.shape k ≠ 0) : ∃ m, npMaxKeep X k = .ok m := by
  unfold npMaxKeep
  rw [if_pos ⟨h, h0⟩]
  exact ⟨_, rfl⟩

theorem shiftLpdf_ok {g : Nat} {lpdf : Arr ℝ} (h : g < lpdf.shape.length) (h0 : axisLen lpdf.shape g ≠ 0) :
    ∃ d m, npMaxKeep lpdf g = .ok m ∧ shiftLpdf g lpdf = .ok (d, m) ∧ d.shape.length = lpdf.shape.length ∧
      (∀ j, axisLen d.shape j = axisLen lpdf.shape j) ∧ ∀ c, d.at c = lpdf.at c - m.at c := by
  obtain ⟨m, hm⟩ := npMaxKeep_ok h h0
  obtain ⟨hax, hl, hc, hle, hat⟩ := npMaxKeep_at hm
  have hb : BroadcastsTo m.shape lpdf.shape := ⟨hl.le, fun j => by
    rw [hax]
    split
    · exact .inl rfl
    · exact .inr rfl⟩
  obtain ⟨s, hs, hsb⟩ := isBroadcast_of_common (BroadcastsTo.refl lpdf.shape) hb
  refine ⟨⟨s, fun c => lpdf.at c - m.at c⟩, m, hm, ?_, ?_, fun j => ?_, fun c => ?_⟩
  · unfold shiftLpdf
    rw [hm]
    simp only [bind, Except.bind]
    rw [(broadcastedShape_ok _ _).2 hs]
    rfl
  · exact le_antisymm hsb.1 (hs.rank_ge _ (by simp))
  · have h1 := hs.fits j lpdf.shape (by simp)
    have h2 := hsb.2 j
    show axisLen s j = _
    omega
  · show lpdf.at (restrict s c) - m.at (restrict s c) = _
    rw [at_isBroadcast hs (by simp) c, at_isBroadcast hs (by simp) c]

/-- **C65** The exponentials cannot overflow, and one of them is 1: for every cluster plate the exponents are at most zero, and zero for
some cluster. -/
theorem C65_no_overflow {g : Nat} {lpdf : Arr ℝ} (h : g < lpdf.shape.length) (h0 : axisLen lpdf.shape g ≠ 0) :
    ∃ d m, shiftLpdf g lpdf = .ok (d, m) ∧ (∀ c, d.at c = lpdf.at c - m.at c) ∧
      (∀ c, c g < axisLen lpdf.shape g → d.at c ≤ 0) ∧ ∀ c, ∃ t < axisLen lpdf.shape g, d.at (Function.update c g t) = 0 := by
  obtain ⟨d, m, hm, hs, _, _, hd⟩ := shiftLpdf_ok h h0
  obtain ⟨hax, hl, hc, hle, hat⟩ := npMaxKeep_at hm
  refine ⟨d, m, hs, hd, fun c hcg => ?_, fun c => ?_⟩
  · rw [hd]
    have := hle c (c g) hcg
    rw [Function.update_eq_self] at this
    linarith
  · obtain ⟨t, ht, e⟩ := hat c
    refine ⟨t, ht, ?_⟩
    rw [hd, hc, e, sub_self]

section
variable {P Sz : List Nat} {K : Nat}

theorem insCoord_zero (t : Nat) (q : Nat → Nat) : insCoord 0 t q = consC t q := by
  funext j
  cases j <;> simp [insCoord, consC]

theorem broadcastsTo_erase {X : Arr ℝ} (hX : BroadcastsTo X.shape (P ++ [K])) (hl : 0 < X.shape.length) :
    BroadcastsTo (X.shape.eraseIdx (X.shape.length - 1 - 0)) P := by
  refine ⟨?_, fun j => ?_⟩
  · have := hX.1
    rw [List.length_eraseIdx, if_pos (by omega)]
    simp at this
    omega
  · rw [axisLen_eraseIdx _ _ _ hl, if_neg (by omega)]
    have := hX.2 (j + 1)
    rw [axisLen_append, if_neg (by simp)] at this
    simpa using this

/-- the average over the clusters, for `cluster_plate = -1` -/
theorem averagePdf_ok {lpdf p : Arr ℝ} (hK : K ≠ 0) (hL : BroadcastsTo lpdf.shape (P ++ [K])) (hl : 0 < lpdf.shape.length)
    (hp : p.shape = Sz ++ [K]) (hSz : BroadcastsTo Sz P)
    (hpos : ∀ q, ValidIn P q → 0 < ∑ k ∈ Finset.range K, p.at (consC k q) * Real.exp (lpdf.at (consC k q))) :
    ∃ r, averagePdf 0 lpdf p = .ok r ∧ BroadcastsTo r.shape P ∧
      ∀ q, ValidIn P q → r.at q = Real.log (∑ k ∈ Finset.range K, p.at (consC k q) * Real.exp (lpdf.at (consC k q))) := by
  have hPK : axisLen (P ++ [K]) 0 = K := by rw [axisLen_append, if_pos (by simp)]; rfl
  have h0 : axisLen lpdf.shape 0 ≠ 0 := by
    have := hL.2 0
    rw [hPK] at this
    omega
  obtain ⟨d, m, hm, hs, hdl, hdax, hd⟩ := shiftLpdf_ok hl h0
  obtain ⟨hax, hml, hmc, hle, hat⟩ := npMaxKeep_at hm
  obtain ⟨e, he, hel, heax, heat⟩ := moveaxis_right (⟨d.shape, fun c => Real.exp (d.get c)⟩ : Arr ℝ) (f := 0) (t := 0)
    (by show 0 < d.shape.length; omega) (by show 0 < d.shape.length; omega)
  have hm0 : ∀ j, movedAt 0 0 j = j := by intro j; unfold movedAt; (repeat' split) <;> omega
  have heb : BroadcastsTo e.shape (P ++ [K]) := by
    refine ⟨?_, fun j => ?_⟩
    · rw [hel]; show d.shape.length ≤ _; rw [hdl]; exact hL.1
    · rw [heax, hm0]; show axisLen d.shape j = 1 ∨ _; rw [hdax]; exact hL.2 j
  have hea : ∀ c, e.at c = Real.exp (lpdf.at c - m.at c) := by
    intro c
    rw [heat]
    simp only [hm0]
    show Real.exp (d.at c) = _
    rw [hd]
  have hpb : BroadcastsTo p.shape (P ++ [K]) := hp ▸ broadcastsTo_append_right hSz
  obtain ⟨x, hx, hxB, hxb, hxat⟩ := npMul_common heb hpb
  have hxl : 0 < x.shape.length := by
    have := hxB.rank_ge e.shape (by simp)
    rw [hel] at this
    have e' : (⟨d.shape, fun c => Real.exp (d.get c)⟩ : Arr ℝ).shape.length = d.shape.length := rfl
    omega
  have hx0 : axisLen x.shape 0 = K := by
    have h1 := hxB.fits 0 p.shape (by simp)
    have h2 := hxb.2 0
    have h3 : axisLen p.shape 0 = K := by rw [hp, axisLen_append, if_pos (by simp)]; rfl
    rw [hPK] at h2
    omega
  have hsum : npSumAxis x 0 = .ok ⟨x.shape.eraseIdx (x.shape.length - 1 - 0),
      fun c => ∑ t ∈ Finset.range (axisLen x.shape 0), x.get (insCoord 0 t c)⟩ := by
    unfold npSumAxis
    rw [if_pos hxl]
  set sm : Arr ℝ := ⟨x.shape.eraseIdx (x.shape.length - 1 - 0),
      fun c => ∑ t ∈ Finset.range (axisLen x.shape 0), x.get (insCoord 0 t c)⟩ with hsm
  have hsat := npSumAxis_at hsum
  have hm1 : axisLen m.shape 0 = 1 := by rw [hax, if_pos rfl]
  have hsq : npSqueezeAxis m 0 = .ok ⟨m.shape.eraseIdx (m.shape.length - 1 - 0), fun c => m.get (insCoord 0 0 c)⟩ := by
    unfold npSqueezeAxis
    rw [if_pos ⟨by omega, hm1⟩]
  set m' : Arr ℝ := ⟨m.shape.eraseIdx (m.shape.length - 1 - 0), fun c => m.get (insCoord 0 0 c)⟩ with hm'
  have hmb : BroadcastsTo m.shape (P ++ [K]) := by
    refine ⟨by rw [hml]; exact hL.1, fun j => ?_⟩
    rw [hax]
    split
    · exact .inl rfl
    · exact hL.2 j
  have hm'at : ∀ q k, m'.at q = m.at (consC k q) := by
    intro q k
    show m.get _ = m.get _
    congr 1
    funext j
    rw [insCoord_zero]
    cases j with
    | zero => simp [consC, restrict, hm1]
    | succ j =>
      have e := axisLen_eraseIdx m.shape 0 j (by omega)
      rw [if_neg (by omega)] at e
      simp only [consC, restrict, hm', e]
  obtain ⟨r, hr, _, hrb, hrat⟩ := npAdd_common (X := (⟨sm.shape, fun c => Real.log (sm.get c)⟩ : Arr ℝ)) (Y := m') (B := P)
    (broadcastsTo_erase hxb hxl) (broadcastsTo_erase hmb (by omega))
  refine ⟨r, ?_, hrb, fun q hq => ?_⟩
  · unfold averagePdf
    rw [hs]
    simp only [bind, Except.bind]
    rw [show (-(((0 : Nat) : Int) + 1)) = -((0 : Nat) + 1 : Int) from rfl] at he ⊢
    rw [show moveaxis (⟨d.shape, fun c => Real.exp (d.get c)⟩ : Arr ℝ) (-((0 : Nat) + 1 : Int)) (-1) = .ok e from he]
    simp only
    rw [hx]
    simp only
    rw [hsum]
    simp only
    rw [hsq]
    exact hr
  · rw [hrat]
    have e1 : Arr.at (⟨sm.shape, fun c => Real.log (sm.get c)⟩ : Arr ℝ) q = Real.log (sm.at q) := rfl
    rw [e1, hsat, hx0]
    have e2 : ∀ t, x.at (insCoord 0 t q) = Real.exp (-m'.at q) * (p.at (consC t q) * Real.exp (lpdf.at (consC t q))) := by
      intro t
      rw [insCoord_zero, hxat, hea, ← hm'at q t, sub_eq_add_neg, Real.exp_add]
      ring
    simp only [e2]
    rw [← Finset.mul_sum, Real.log_mul (Real.exp_ne_zero _) (hpos q hq).ne', Real.log_exp]
    ring

/-- **C65** With `cluster_plate = -1`, for points, parameters and probabilities of any broadcast shapes: the result is
`log Σ_k <z_k> exp <log p(x | θ_k)>` of every point.  Full claim: the same for every `cluster_plate`, which is refuted below. -/
theorem C65_integrated_partial (ts : List (LogTerm ℝ)) (hts : ∀ t ∈ ts, t.FitsMixture P 0 K) {cgf f p : Arr ℝ} (hK : K ≠ 0)
    (hc : BroadcastsTo cgf.shape (P ++ [K])) (hf : BroadcastsTo f.shape P) (hp : p.shape = Sz ++ [K]) (hSz : BroadcastsTo Sz P)
    (h0 : ∀ k q, k < K → ValidIn P q → 0 ≤ p.at (consC k q))
    (h1 : ∀ q, ValidIn P q → 0 < ∑ k ∈ Finset.range K, p.at (consC k q)) :
    ∃ r, integratedLogpdf 0 f cgf (ts.map fun t => (t.dims.length, t.u, t.phi)) p = .ok r ∧ BroadcastsTo r.shape P ∧
      ∀ q, ValidIn P q → r.at q = Real.log (∑ k ∈ Finset.range K, p.at (consC k q) * Real.exp
        (cgf.at (consC k q) + f.at q + (ts.map fun t => sumOver t.dims fun d =>
          t.phi.at (joinC t.dims.length d (consC k q)) * t.u.at (joinC t.dims.length d q)).sum)) := by
  have hins : insAxis 0 K P = P ++ [K] := by unfold insAxis; simp
  have hinc : ∀ k p, insC 0 k p = consC k p := by intro k p; funext j; cases j <;> simp [insC, consC]
  have hU : ∀ t : LogTerm ℝ, ∃ v, t ∈ ts → npExpandDims t.u (0 + t.dims.length) = .ok v ∧
      LogTerm.Fits (insAxis 0 K P) ⟨t.dims, v, t.phi⟩ ∧
      ∀ d p k, v.at (joinC t.dims.length d (insC 0 k p)) = t.u.at (joinC t.dims.length d p) := by
    intro t
    by_cases ht : t ∈ ts
    · obtain ⟨⟨S, hu, hS⟩, hp⟩ := hts t ht
      obtain ⟨v, hv, hvb, hvat⟩ := C50_moments_self (g := 0) (K := K) (Nat.zero_le _) hu hS
      have hl : t.u.shape.length = S.length + t.dims.length := by rw [hu, List.length_append]
      obtain ⟨v', hv', hvl, hvax, _⟩ := npExpandDims_ok (X := t.u) (g := 0 + t.dims.length) (by omega)
      obtain rfl : v = v' := by
        unfold mixUSelf at hv
        rw [hv] at hv'
        exact Except.ok.inj hv'
      refine ⟨v, fun _ => ⟨hv, ⟨hvb, ?_, fun k hk => ?_, hp⟩, hvat⟩⟩
      · show t.dims.length ≤ v.shape.length
        omega
      · show axisLen v.shape k = _
        have hk' : k < t.dims.length := hk
        rw [hvax, if_pos (by omega), hu, axisLen_append, if_pos hk']
    · exact ⟨t.u, fun h => absurd h ht⟩
  choose U hU using hU
  set ts' : List (LogTerm ℝ) := ts.map fun t => ⟨t.dims, U t, t.phi⟩ with hts'
  have hfits : ∀ t ∈ ts', t.Fits (insAxis 0 K P) := by
    intro t ht
    rw [hts', List.mem_map] at ht
    obtain ⟨t0, h0, rfl⟩ := ht
    exact (hU t0 h0).2.1
  obtain ⟨F, hF, hFb, hFat⟩ := C50_moments_self (g := 0) (K := K) (dims := []) (u := f) (Nat.zero_le _) (by simp) hf
  obtain ⟨F', hF', hFl, _, _⟩ := npExpandDims_ok (X := f) (g := 0) (Nat.zero_le _)
  obtain rfl : F = F' := by
    have : npExpandDims f 0 = .ok F := hF
    rw [this] at hF'
    exact Except.ok.inj hF'
  have hj : ∀ (d p : Nat → Nat), joinC ([] : List Nat).length d p = p := by
    intro d p; funext k; simp [joinC]
  obtain ⟨L0, hL0, hLB, hLb0, hLat0⟩ := npAdd_common (X := cgf) (Y := F) (B := insAxis 0 K P) (by rw [hins]; exact hc) (by simpa using hFb)
  obtain ⟨L, hL, hLb, hLl, hLat⟩ := logpdf_fold ts' hfits L0 hLb0
  have hLval : ∀ k q, k < K → ValidIn P q → L.at (consC k q) = cgf.at (consC k q) + f.at q + (ts.map fun t => sumOver t.dims fun d =>
      t.phi.at (joinC t.dims.length d (consC k q)) * t.u.at (joinC t.dims.length d q)).sum := by
    intro k q hk hq
    have hv : ValidIn (insAxis 0 K P) (consC k q) := by rw [hins]; exact validIn_consC hk hq
    have e := hFat (fun _ => 0) q k
    rw [hj, hj, hinc] at e
    rw [hLat _ hv, hLat0, e]
    congr 1
    rw [hts', List.map_map]
    congr 1
    refine List.map_congr_left fun t ht => ?_
    simp only [Function.comp]
    refine sumOver_congr _ fun i _ => ?_
    rw [← hinc, (hU t ht).2.2]
  have hsum : ∀ q, ValidIn P q → 0 < ∑ k ∈ Finset.range K, p.at (consC k q) * Real.exp (L.at (consC k q)) := by
    intro q hq
    obtain ⟨k, hk, hne⟩ := Finset.exists_ne_zero_of_sum_ne_zero (h1 q hq).ne'
    refine Finset.sum_pos' (fun k hk => mul_nonneg (h0 k q (Finset.mem_range.1 hk) hq) (Real.exp_pos _).le) ⟨k, hk, ?_⟩
    exact mul_pos (lt_of_le_of_ne (h0 k q (Finset.mem_range.1 hk) hq) (Ne.symm hne)) (Real.exp_pos _)
  have hLpos : 0 < L.shape.length := by
    have := hLB.rank_ge F.shape (by simp)
    omega
  obtain ⟨r, hr, hrb, hrat⟩ := averagePdf_ok hK (by rw [← hins]; exact hLb) hLpos hp hSz hsum
  refine ⟨r, ?_, hrb, fun q hq => ?_⟩
  · unfold integratedLogpdf
    rw [show npExpandDims f 0 = .ok F from hF]
    simp only [bind, Except.bind]
    rw [List.mapM_map, mapM_ok (g := fun t : LogTerm ℝ => (t.dims.length, U t, t.phi)) ts (fun t ht => by
      simp only [Function.comp]
      rw [(hU t ht).1]
      rfl)]
    simp only
    have e : ts.map (fun t => (t.dims.length, U t, t.phi)) = ts'.map fun t => (t.dims.length, t.u, t.phi) := by
      rw [hts', List.map_map]
      rfl
    rw [e]
    have e2 : computeLogpdf cgf F (ts'.map fun t => (t.dims.length, t.u, t.phi)) = .ok L := by
      unfold computeLogpdf
      rw [hL0]
      exact hL
    rw [e2]
    exact hr
  · rw [hrat q hq]
    congr 1
    refine Finset.sum_congr rfl fun k hk => ?_
    rw [hLval k q (Finset.mem_range.1 hk) hq]

/-- **C65** The result is at least the average `Σ_k <z_k> <log p(x | θ_k)>` of the expected log-densities. -/
theorem C65_lower_bound_partial (ts : List (LogTerm ℝ)) (hts : ∀ t ∈ ts, t.FitsMixture P 0 K) {cgf f p : Arr ℝ} (hK : K ≠ 0)
    (hc : BroadcastsTo cgf.shape (P ++ [K])) (hf : BroadcastsTo f.shape P) (hp : p.shape = Sz ++ [K]) (hSz : BroadcastsTo Sz P)
    (h0 : ∀ k q, k < K → ValidIn P q → 0 ≤ p.at (consC k q))
    (h1 : ∀ q, ValidIn P q → ∑ k ∈ Finset.range K, p.at (consC k q) = 1) :
    ∃ r, integratedLogpdf 0 f cgf (ts.map fun t => (t.dims.length, t.u, t.phi)) p = .ok r ∧
      ∀ q, ValidIn P q → ∑ k ∈ Finset.range K, p.at (consC k q) *
        (cgf.at (consC k q) + f.at q + (ts.map fun t => sumOver t.dims fun d =>
          t.phi.at (joinC t.dims.length d (consC k q)) * t.u.at (joinC t.dims.length d q)).sum) ≤ r.at q := by
  obtain ⟨r, hr, _, h⟩ := C65_integrated_partial ts hts hK hc hf hp hSz h0 (fun q hq => by rw [h1 q hq]; exact one_pos)
  refine ⟨r, hr, fun q hq => ?_⟩
  rw [h q hq]
  have := strictConcaveOn_log_Ioi.concaveOn.le_map_sum (t := Finset.range K) (w := fun k => p.at (consC k q))
    (p := fun k => Real.exp (cgf.at (consC k q) + f.at q + (ts.map fun t => sumOver t.dims fun d =>
          t.phi.at (joinC t.dims.length d (consC k q)) * t.u.at (joinC t.dims.length d q)).sum))
    (fun k hk => h0 k q (Finset.mem_range.1 hk) hq) (h1 q hq) (fun k _ => Set.mem_Ioi.2 (Real.exp_pos _))
  simpa only [Real.log_exp, smul_eq_mul] using this

end

/-! ## Other cluster plates

After the cluster axis has been moved to the end, line 538 sums the axis `cluster_plate` and not the last one. -/

/-- **C65** `cluster_plate = -2`, two points and two clusters, every log-density zero and the probabilities of each point 1/4 and 3/4: the
results are `log (1/2)` and `log (3/2)`, and not 0. -/
theorem C65_cluster_plate_refuted :
    ∃ r : Arr ℝ, integratedLogpdf 1 ⟨[2], fun _ => 0⟩ ⟨[2, 2], fun _ => 0⟩ []
        ⟨[2, 2], fun c => if c 0 = 0 then 1 / 4 else 3 / 4⟩ = .ok r ∧ r.shape = [2] ∧
      r.at (fun _ => 0) = Real.log (1 / 2) ∧ r.at (fun _ => 1) = Real.log (3 / 2) := by
  refine ⟨_, rfl, rfl, ?_, ?_⟩
  · change Real.log (∑ t ∈ Finset.range 2, Real.exp (((0 : ℝ) + 0) - maxTo (fun _ => 0 + 0) 1) *
      (if (0 : Nat) = 0 then 1 / 4 else 3 / 4)) + maxTo (fun _ => 0 + 0) 1 = _
    norm_num [Finset.sum_range_succ, maxTo]
  · change Real.log (∑ t ∈ Finset.range 2, Real.exp (((0 : ℝ) + 0) - maxTo (fun _ => 0 + 0) 1) *
      (if (1 : Nat) = 0 then 1 / 4 else 3 / 4)) + maxTo (fun _ => 0 + 0) 1 = _
    norm_num [Finset.sum_range_succ, maxTo]

/-- **C65** With three points and two clusters it raises `ValueError`: the sum has one element for each cluster, the largest log-density
one for each point. -/
theorem C65_cluster_plate_raises :
    integratedLogpdf 1 ⟨[3], fun _ => 0⟩ ⟨[2, 3], fun _ => 0⟩ [] ⟨[3, 2], fun _ => 1 / 2⟩ = .error .valueError := rfl

/-- **C65** It also raises when `f` of the mixed distribution is the scalar which Gaussian nodes return: `np.expand_dims` finds no axis. -/
theorem C65_scalar_f_raises (g : Nat) (f cgf p : Arr ℝ) (ts : List (Nat × Arr ℝ × Arr ℝ)) (hf : f.shape.length < g) :
    integratedLogpdf g f cgf ts p = .error .valueError := by
  unfold integratedLogpdf npExpandDims
  rw [if_neg (by omega)]
  rfl

/-! ## Examples -/

/-- a point for each of two plates, three clusters, one moment with a variable axis of length two -/
example : ∃ r, integratedLogpdf 0 ⟨[2], fun c => (c 0 : ℝ)⟩ ⟨[3], fun c => (c 0 : ℝ)⟩
      [(1, (⟨[2, 2], fun c => (c 0 + c 1 : ℝ)⟩ : Arr ℝ), ⟨[3, 2], fun c => (c 0 - c 1 : ℝ)⟩)] ⟨[2, 3], fun c => (c 0 + 1 : ℝ) / 6⟩ = .ok r ∧
    BroadcastsTo r.shape [2] := by
  have hb : BroadcastsTo [3, 2] (insAxis 0 3 [2] ++ [2]) :=
    ⟨by decide, fun k => by
      match k with
      | 0 => exact .inr rfl
      | 1 => exact .inr rfl
      | k + 2 => exact .inl (by simp [axisLen])⟩
  obtain ⟨r, hr, hb, _⟩ := C65_integrated_partial (P := [2]) (Sz := [2]) (K := 3)
    [⟨[2], ⟨[2, 2], fun c => (c 0 + c 1 : ℝ)⟩, ⟨[3, 2], fun c => (c 0 - c 1 : ℝ)⟩⟩]
    (fun t ht => by
      rw [List.mem_singleton] at ht
      subst ht
      exact ⟨⟨[2], rfl, BroadcastsTo.refl _⟩, hb⟩)
    (cgf := ⟨[3], fun c => (c 0 : ℝ)⟩) (f := ⟨[2], fun c => (c 0 : ℝ)⟩) (p := ⟨[2, 3], fun c => (c 0 + 1 : ℝ) / 6⟩) (by decide)
    ⟨by decide, fun k => by
      match k with
      | 0 => exact .inr rfl
      | k + 1 => exact .inl (by simp [axisLen])⟩
    (BroadcastsTo.refl _) rfl (BroadcastsTo.refl _)
    (fun k q _ _ => by
      show (0 : ℝ) ≤ (_ + 1) / 6
      positivity)
    (fun q _ => Finset.sum_pos (fun k _ => by
      show (0 : ℝ) < (_ + 1) / 6
      positivity) (by simp))
  exact ⟨r, hr, hb⟩

example : (1 : Nat) < (⟨[2, 3], fun c => (c 0 * c 1 : ℝ)⟩ : Arr ℝ).shape.length ∧
    axisLen (⟨[2, 3], fun c => (c 0 * c 1 : ℝ)⟩ : Arr ℝ).shape 1 ≠ 0 := by decide

example : (⟨[], fun _ => 0⟩ : Arr ℝ).shape.length < 1 := by decide

end Verif
