import Mathlib.Tactic.Common
import Mathlib.Data.List.Nodup
import Mathlib.Data.List.Basic
import Verif.Model.Engine

/-! # Lemmas about the inference engine -/

namespace Verif

theorem Py.bind_ok {σ α β : Type _} {m : Py σ α} {f : α → Py σ β} {s s' : σ} {a : α}
    (h : m s = (.ok a, s')) : (m >>= f) s = f a s' := by
  show (match m s with | (.ok a, s') => f a s' | (.error e, s') => (.error e, s')) = _
  rw [h]

theorem Py.bind_error {σ α β : Type _} {m : Py σ α} {f : α → Py σ β} {s s' : σ} {e : PyErr}
    (h : m s = (.error e, s')) : (m >>= f) s = (.error e, s') := by
  show (match m s with | (.ok a, s') => f a s' | (.error e, s') => (.error e, s')) = _
  rw [h]

theorem Py.bind_lift_ok {σ α β : Type _} {x : Except PyErr α} {f : α → Py σ β} {s : σ} {a : α}
    (h : x = .ok a) : (Py.lift x >>= f) s = f a s := by subst h; rfl

theorem Py.bind_lift_error {σ α β : Type _} {x : Except PyErr α} {f : α → Py σ β} {s : σ}
    {e : PyErr} (h : x = .error e) : (Py.lift x >>= f) s = (.error e, s) := by subst h; rfl

theorem Py.bind_get {σ β : Type _} {f : σ → Py σ β} {s : σ} : (Py.get >>= f) s = f s s := rfl

theorem Py.bind_modify {σ β : Type _} {g : σ → σ} {f : Unit → Py σ β} {s : σ} :
    (Py.modify g >>= f) s = f () (g s) := rfl

theorem Py.bind_pure {σ α β : Type _} {a : α} {f : α → Py σ β} {s : σ} :
    ((pure a : Py σ α) >>= f) s = f a s := rfl

set_option linter.unusedSectionVars false

section
variable {ν V O M F : Type _} [DecidableEq ν] [FloatOps F]

theorem setItem_ok {α : Type _} (a : List α) (i : Nat) (v : α) (h : i < a.length) :
    setItem a i v = .ok (a.set i v) := by unfold setItem; rw [if_pos h]

/-- The engine state, as far as the history is concerned, is well-formed. -/
structure VBWf (s : VBState ν V O M F) : Prop where
  nodup : s.model.Nodup
  iter_le : s.iter ≤ s.L.length
  len : ∀ n ∈ s.model, (s.l n).length = s.L.length

/-- Whatever happens, the loop of `loglikelihood_lowerbound` only writes entry `iter` of `l`. -/
theorem loglikLoop_frame (env : VBEnv ν V O M F) (ns : List ν) (L : F) (s : VBState ν V O M F) :
    ∃ l', (loglikLoop env ns L s).2 = { s with l := l' } ∧
      ∀ n, l' n = s.l n ∨ ∃ v, l' n = (s.l n).set s.iter v := by
  induction ns generalizing L s with
  | nil => exact ⟨s.l, rfl, fun n => Or.inl rfl⟩
  | cons n ns ih =>
    unfold loglikLoop
    rw [Py.bind_get]
    cases hc : env.contribution n s.world with
    | error e =>
      rw [Py.bind_lift_error rfl]
      exact ⟨s.l, rfl, fun n => Or.inl rfl⟩
    | ok lp =>
      rw [Py.bind_lift_ok rfl]
      by_cases hi : s.iter < (s.l n).length
      · rw [Py.bind_lift_ok (setItem_ok _ _ _ hi), Py.bind_modify]
        obtain ⟨l', h1, h2⟩ := ih (FloatOps.add L lp)
          { s with l := Function.update s.l n ((s.l n).set s.iter lp) }
        refine ⟨l', h1, fun m => ?_⟩
        have h2m := h2 m
        simp only at h2m
        by_cases hm : m = n
        · subst hm
          rw [Function.update_self] at h2m
          rcases h2m with h | ⟨v, h⟩
          · exact Or.inr ⟨lp, h⟩
          · exact Or.inr ⟨v, by rw [h, List.set_set]⟩
        · rw [Function.update_of_ne hm] at h2m
          exact h2m
      · rw [Py.bind_lift_error (by unfold setItem; rw [if_neg hi])]
        exact ⟨s.l, rfl, fun n => Or.inl rfl⟩

/-- If the loop of `loglikelihood_lowerbound` succeeds, it has stored every contribution. -/
theorem loglikLoop_ok (env : VBEnv ν V O M F) (ns : List ν) (hnd : ns.Nodup) (L : F)
    (s : VBState ν V O M F) (r : F) (h : (loglikLoop env ns L s).1 = .ok r) :
    ∃ c : ν → F, (∀ n ∈ ns, env.contribution n s.world = .ok (c n)) ∧
      r = ns.foldl (fun L n => FloatOps.add L (c n)) L ∧
      (∀ n ∈ ns, s.iter < (s.l n).length) ∧
      (loglikLoop env ns L s).2
        = { s with l := fun n => if n ∈ ns then (s.l n).set s.iter (c n) else s.l n } := by
  induction ns generalizing L s with
  | nil =>
    refine ⟨fun _ => L, by simp, ?_, by simp, ?_⟩
    · injection h with h; exact h.symm
    · simp only [List.not_mem_nil, if_false]; rfl
  | cons n ns ih =>
    unfold loglikLoop at h ⊢
    rw [Py.bind_get] at h ⊢
    cases hc : env.contribution n s.world with
    | error e => rw [hc, Py.bind_lift_error rfl] at h; cases h
    | ok lp =>
      rw [hc, Py.bind_lift_ok rfl] at h
      rw [Py.bind_lift_ok rfl]
      by_cases hi : s.iter < (s.l n).length
      · rw [Py.bind_lift_ok (setItem_ok _ _ _ hi), Py.bind_modify] at h ⊢
        obtain ⟨hnn, hnd'⟩ := List.nodup_cons.1 hnd
        obtain ⟨c, h1, h2, h3, h4⟩ := ih hnd' _ _ h
        refine ⟨fun m => if m = n then lp else c m, ?_, ?_, ?_, ?_⟩
        · intro m hm
          by_cases hmn : m = n
          · subst hmn; simp [hc]
          · simp only [hmn, if_false]
            exact h1 m ((List.mem_cons.1 hm).resolve_left hmn)
        · simp only [List.foldl_cons, if_true]
          rw [h2]
          apply List.foldl_ext
          intro a m hm
          rw [if_neg (by rintro rfl; exact hnn hm)]
        · intro m hm
          by_cases hmn : m = n
          · subst hmn; exact hi
          · have := h3 m ((List.mem_cons.1 hm).resolve_left hmn)
            simpa [Function.update_of_ne hmn] using this
        · rw [h4]
          congr 1
          funext m
          by_cases hmn : m = n
          · subst hmn; simp [hnn]
          · simp [hmn]
      · rw [Py.bind_lift_error (by unfold setItem; rw [if_neg hi])] at h; cases h

theorem vbSaveCrash_frame (env : VBEnv ν V O M F) (crash : Option Nat) (keys : List (NodeKey ν))
    (s : VBState ν V O M F) :
    ∃ f, (vbSaveCrash env crash keys s).2 = { s with file := f } := by
  unfold vbSaveCrash
  simp only []
  split
  · exact ⟨s.file, rfl⟩
  · exact ⟨_, rfl⟩

theorem autosave_frame (env : VBEnv ν V O M F) (s : VBState ν V O M F) :
    ∃ f, (autosave env s).2 = { s with file := f } := by
  unfold autosave
  rw [Py.bind_get]
  split
  · have key : ∀ o : Option (List ν), ∃ f, ((match o with
        | some ns => vbSave env (ns.map .node)
        | none => vbSave env []) s).2 = { s with file := f } := by
      intro o
      cases o with
      | some ns => exact vbSaveCrash_frame env none _ s
      | none => exact vbSaveCrash_frame env none _ s
    exact key s.autosaveNodes
  · exact ⟨s.file, rfl⟩

/-- The state after making room for entry `iter`. -/
def grown (s : VBState ν V O M F) : VBState ν V O M F :=
  if s.iter ≥ s.L.length then appendIterations 100 s else s

theorem grown_spec (s : VBState ν V O M F) (h : VBWf s) :
    ∃ (k : Nat) , grown s = { s with
        L := s.L ++ List.replicate k FloatOps.nan
        l := fun n => if n ∈ s.model then s.l n ++ List.replicate k FloatOps.nan else s.l n } ∧
      s.iter < s.L.length + k := by
  unfold grown
  by_cases hi : s.iter ≥ s.L.length
  · refine ⟨100, by rw [if_pos hi]; rfl, ?_⟩
    have := h.iter_le; omega
  · refine ⟨0, by rw [if_neg hi]; simp, ?_⟩
    omega

/-- The convergence flag set by `_end_iteration_step`. -/
def convergedFlag (s : VBState ν V O M F) (L : List F) (tol : Option F) : Bool :=
  (!s.ignoreBoundChecks) && (!s.annealingChanged) && decide (s.iter > 0)
    && convergenceTest (L.getD (s.iter - 1) FloatOps.nan) (L.getD s.iter FloatOps.nan) (tol.getD s.tol)

/-- The part of `_end_iteration_step` after the bound has been computed. -/
theorem endIterationStep_eq (env : VBEnv ν V O M F) (tol : Option F) (s : VBState ν V O M F) :
    endIterationStep env tol s =
      match runCallback env (grown s) with
      | (.error e, s1) => (.error e, s1)
      | (.ok (), s1) => match loglikelihoodLowerbound env s1 with
        | (.error e, s2) => (.error e, s2)
        | (.ok L, s2) => match setItem s2.L s2.iter L with
          | .error e => (.error e, s2)
          | .ok a =>
            let s3 := { s2 with L := a, converged := convergedFlag s2 a tol }
            match autosave env s3 with
            | (.error e, s4) => (.error e, s4)
            | (.ok (), s4) =>
              (.ok s4.converged, { s4 with annealingChanged := false, iter := s4.iter + 1 }) := by
  unfold endIterationStep
  rw [Py.bind_modify]
  show (runCallback env >>= _) (grown s) = _
  rcases hcb : runCallback env (grown s) with ⟨_ | _, s1⟩
  · rw [Py.bind_error hcb]
  · rw [Py.bind_ok hcb]
    simp only []
    rcases hll : loglikelihoodLowerbound env s1 with ⟨_ | L, s2⟩
    · rw [Py.bind_error hll]
    · rw [Py.bind_ok hll, Py.bind_get]
      simp only []
      cases hset : setItem s2.L s2.iter L with
      | error e => rw [Py.bind_lift_error rfl]
      | ok a =>
        rw [Py.bind_lift_ok rfl, Py.bind_modify, Py.bind_modify, Py.bind_get]
        simp only []
        have key : ∀ (s3 : VBState ν V O M F) (g : Unit → Py (VBState ν V O M F) Bool)
            (hg : g = fun _ => (do
              autosave env
              Py.modify fun s => { s with annealingChanged := false }
              Py.modify fun s => { s with iter := s.iter + 1 }
              let s ← Py.get
              return s.converged)),
            g () s3 = match autosave env s3 with
              | (.error e, s4) => (.error e, s4)
              | (.ok (), s4) =>
                (.ok s4.converged, { s4 with annealingChanged := false, iter := s4.iter + 1 }) := by
          intro s3 g hg
          subst hg
          simp only []
          rcases ha : autosave env s3 with ⟨_ | _, s4⟩
          · rw [Py.bind_error ha]
          · rw [Py.bind_ok ha]; rfl
        by_cases hcond : s2.ignoreBoundChecks = false ∧ s2.annealingChanged = false ∧ s2.iter > 0
        · rw [if_pos hcond]
          obtain ⟨h1, h2, h3⟩ := hcond
          by_cases ht : convergenceTest (a.getD (s2.iter - 1) FloatOps.nan)
              (a.getD s2.iter FloatOps.nan) (tol.getD s2.tol) = true
          · rw [if_pos ht]
            have hf : convergedFlag s2 a tol = true := by
              unfold convergedFlag; rw [h1, h2, ht]; simpa using h3
            rw [hf]
            exact key _ _ rfl
          · rw [if_neg ht]
            have hf : convergedFlag s2 a tol = false := by
              unfold convergedFlag
              rw [Bool.eq_false_of_not_eq_true ht, Bool.and_false]
            rw [hf]
            exact key _ _ rfl
        · rw [if_neg hcond]
          have hf : convergedFlag s2 a tol = false := by
            unfold convergedFlag
            rcases hb1 : s2.ignoreBoundChecks with _ | _
            · rcases hb2 : s2.annealingChanged with _ | _
              · have : ¬ s2.iter > 0 := fun h => hcond ⟨hb1, hb2, h⟩
                simp [this]
              · simp
            · simp
          rw [hf]
          exact key _ _ rfl


/-- What a successful `_end_iteration_step` does. -/
theorem endIterationStep_ok (env : VBEnv ν V O M F) (tol : Option F) (s s' : VBState ν V O M F)
    (hwf : VBWf s) (b : Bool) (h : endIterationStep env tol s = (.ok b, s')) :
    ∃ (w : ν → NodeState V O M F) (c : ν → F) (k : Nat) (f : Option (H5 V O F)),
      env.callback s.world = (.ok (), w) ∧
      (∀ n ∈ s.model, env.contribution n w = .ok (c n)) ∧
      s.iter < s.L.length + k ∧
      b = s'.converged ∧
      s' = { s with
        world := w
        iter := s.iter + 1
        annealingChanged := false
        converged := convergedFlag s s'.L tol
        L := (s.L ++ List.replicate k FloatOps.nan).set s.iter
              (s.model.foldl (fun L n => FloatOps.add L (c n)) FloatOps.zero)
        l := fun n => if n ∈ s.model then (s.l n ++ List.replicate k FloatOps.nan).set s.iter (c n)
              else s.l n
        file := f } := by
  obtain ⟨k, hg, hk⟩ := grown_spec s hwf
  rw [endIterationStep_eq, hg] at h
  unfold runCallback at h
  rcases hcb : env.callback s.world with ⟨_ | _, w⟩
  · simp [hcb] at h
  · simp only [hcb] at h
    rcases hll : loglikelihoodLowerbound env { s with
        world := w
        L := s.L ++ List.replicate k FloatOps.nan
        l := fun n => if n ∈ s.model then s.l n ++ List.replicate k FloatOps.nan else s.l n }
        with ⟨_ | L, s2⟩
    · simp [hll] at h
    · simp only [hll] at h
      have hll1 := hll
      unfold loglikelihoodLowerbound at hll1
      rw [Py.bind_get] at hll1
      obtain ⟨c, hc, hL, hlen, hs2⟩ := loglikLoop_ok env s.model hwf.nodup FloatOps.zero _ L
        (by rw [hll1])
      rw [hll1] at hs2
      simp only at hs2 hc hlen
      have e1 : s2.L = s.L ++ List.replicate k FloatOps.nan := by rw [hs2]
      have e2 : s2.iter = s.iter := by rw [hs2]
      rw [setItem_ok s2.L s2.iter L (by rw [e1, e2]; simpa using hk)] at h
      simp only at h
      rcases hau : autosave env { s2 with
          L := s2.L.set s2.iter L, converged := convergedFlag s2 (s2.L.set s2.iter L) tol }
          with ⟨_ | _, s4⟩
      · simp [hau] at h
      · simp only [hau] at h
        obtain ⟨f, hf⟩ := autosave_frame env { s2 with
          L := s2.L.set s2.iter L, converged := convergedFlag s2 (s2.L.set s2.iter L) tol }
        rw [hau] at hf
        simp only at hf
        injection h with hb hs'
        injection hb with hb
        refine ⟨w, c, k, f, rfl, hc, hk, by rw [← hb, ← hs'], ?_⟩
        subst hs'
        subst hs2
        rw [hf]
        simp only [VBState.mk.injEq, true_and, and_true]
        refine ⟨rfl, by rw [hL], ?_⟩
        funext n
        by_cases hn : n ∈ s.model <;> simp [hn]

/-- Whatever `_end_iteration_step` does before an exception, it touches at most entry `iter`. -/
theorem endIterationStep_error (env : VBEnv ν V O M F) (tol : Option F) (s s' : VBState ν V O M F)
    (hwf : VBWf s) (e : PyErr) (h : endIterationStep env tol s = (.error e, s')) :
    s'.model = s.model ∧ s'.iter = s.iter ∧ ∃ k,
      (s'.L = s.L ++ List.replicate k FloatOps.nan ∨
        ∃ v, s'.L = (s.L ++ List.replicate k FloatOps.nan).set s.iter v) ∧
      ∀ n ∈ s.model, s'.l n = s.l n ++ List.replicate k FloatOps.nan ∨
        ∃ v, s'.l n = (s.l n ++ List.replicate k FloatOps.nan).set s.iter v := by
  obtain ⟨k, hg, hk⟩ := grown_spec s hwf
  rw [endIterationStep_eq, hg] at h
  unfold runCallback at h
  rcases hcb : env.callback s.world with ⟨_ | _, w⟩
  · simp only [hcb] at h
    injection h with _ hs'
    subst hs'
    exact ⟨rfl, rfl, k, Or.inl rfl, fun n hn => Or.inl (by simp [hn])⟩
  · simp only [hcb] at h
    obtain ⟨l', hl', hfr⟩ := loglikLoop_frame env s.model FloatOps.zero { s with
        world := w
        L := s.L ++ List.replicate k FloatOps.nan
        l := fun n => if n ∈ s.model then s.l n ++ List.replicate k FloatOps.nan else s.l n }
    have hl : ∀ n ∈ s.model, l' n = s.l n ++ List.replicate k FloatOps.nan ∨
        ∃ v, l' n = (s.l n ++ List.replicate k FloatOps.nan).set s.iter v := by
      intro n hn
      have := hfr n
      simpa [hn] using this
    rcases hll : loglikelihoodLowerbound env { s with
        world := w
        L := s.L ++ List.replicate k FloatOps.nan
        l := fun n => if n ∈ s.model then s.l n ++ List.replicate k FloatOps.nan else s.l n }
        with ⟨_ | L, s2⟩
    · simp only [hll] at h
      injection h with _ hs'
      unfold loglikelihoodLowerbound at hll
      rw [Py.bind_get] at hll
      simp only at hll
      rw [hll] at hl'
      simp only at hl'
      rw [← hs', hl']
      exact ⟨rfl, rfl, k, Or.inl rfl, hl⟩
    · simp only [hll] at h
      unfold loglikelihoodLowerbound at hll
      rw [Py.bind_get] at hll
      simp only at hll
      rw [hll] at hl'
      simp only at hl'
      have e1 : s2.L = s.L ++ List.replicate k FloatOps.nan := by rw [hl']
      have e2 : s2.iter = s.iter := by rw [hl']
      rw [setItem_ok s2.L s2.iter L (by rw [e1, e2]; simpa using hk)] at h
      simp only at h
      obtain ⟨f, hf⟩ := autosave_frame env { s2 with
          L := s2.L.set s2.iter L, converged := convergedFlag s2 (s2.L.set s2.iter L) tol }
      rcases hau : autosave env { s2 with
          L := s2.L.set s2.iter L, converged := convergedFlag s2 (s2.L.set s2.iter L) tol }
          with ⟨_ | _, s4⟩
      · simp only [hau] at h
        rw [hau] at hf
        simp only at hf
        injection h with _ hs'
        rw [← hs', hf]
        subst hl'
        exact ⟨rfl, rfl, k, Or.inr ⟨L, rfl⟩, hl⟩
      · simp [hau] at h

end

end Verif
