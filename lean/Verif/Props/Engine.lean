import Mathlib.Algebra.BigOperators.Group.Finset.Basic
import Mathlib.Tactic.NormNum
import Verif.Lemmas.Engine
import Verif.Spec.Engine
import Verif.Props.Utils

/-!
# C36, C37, C40, C41: iterations, bound history, names, the sum of the bound
-/

namespace Verif
open Spec

set_option linter.unusedSectionVars false

section
variable {ν V O M F : Type _} [DecidableEq ν] [FloatOps F]

/-! ## C36 -/

theorem vbGetitem_refers (env : VBEnv ν V O M F) (model : List ν) (k : NodeKey ν) (n : ν) :
    vbGetitem env model k = .ok n ↔ Refers env model k n := by
  cases k with
  | node m =>
    simp only [vbGetitem, Refers]
    by_cases h : m ∈ model
    · rw [if_pos h]
      constructor
      · intro e; injection e with e; subst e; exact ⟨rfl, h⟩
      · rintro ⟨rfl, _⟩; rfl
    · rw [if_neg h]
      constructor
      · intro e; cases e
      · rintro ⟨rfl, h'⟩; exact absurd h' h
  | name s =>
    simp only [vbGetitem, Refers]
    constructor
    · intro h
      split at h
      · rename_i m hm
        injection h with h
        subst h
        obtain ⟨hp, as, bs, hs, hn⟩ := List.find?_eq_some_iff_append.1 hm
        refine ⟨bs.reverse, as.reverse, ?_, by simpa using hp, ?_⟩
        · have := congrArg List.reverse hs
          simpa using this
        · intro b hb
          have := hn b (by simpa using hb)
          simpa using this
      · cases h
    · rintro ⟨as, bs, hm, hn, hb⟩
      have : model.reverse.find? (fun n => decide (env.name n = s)) = some n := by
        rw [List.find?_eq_some_iff_append]
        refine ⟨by simpa using hn, bs.reverse, as.reverse, by rw [hm]; simp, ?_⟩
        intro b h
        simpa using hb b (by simpa using h)
      rw [this]

theorem updateNodes_frame (env : VBEnv ν V O M F) (keys : List (NodeKey ν)) (s : VBState ν V O M F) :
    ∃ w, (updateNodes env keys s).2 = { s with world := w } := by
  induction keys generalizing s with
  | nil => exact ⟨s.world, rfl⟩
  | cons k ks ih =>
    unfold updateNodes
    rw [Py.bind_get]
    cases hk : vbGetitem env s.model k with
    | error e => rw [Py.bind_lift_error rfl]; exact ⟨s.world, rfl⟩
    | ok n =>
      rw [Py.bind_lift_ok rfl]
      by_cases hu : env.hasUpdate n = true
      · rcases hr : env.update n s.world with ⟨_ | _, w1⟩
        · rw [Py.bind_error (s' := { s with world := w1 }) (by unfold runUpdate; rw [if_pos hu, hr])]
          exact ⟨w1, rfl⟩
        · rw [Py.bind_ok (s' := { s with world := w1 }) (by unfold runUpdate; rw [if_pos hu, hr])]
          exact ih _
      · rw [Py.bind_ok (s' := s) (by unfold runUpdate; rw [if_neg hu])]
        exact ih s

theorem updateNodes_ok (env : VBEnv ν V O M F) (keys : List (NodeKey ν)) (s s' : VBState ν V O M F)
    (h : updateNodes env keys s = (.ok (), s')) : UpdatedInOrder env s.model keys s.world s'.world := by
  induction keys generalizing s with
  | nil =>
    have : s' = s := by injection h with _ h; exact h.symm
    subst this
    exact .nil _
  | cons k ks ih =>
    unfold updateNodes at h
    rw [Py.bind_get] at h
    cases hk : vbGetitem env s.model k with
    | error e => rw [hk, Py.bind_lift_error rfl] at h; cases h
    | ok n =>
      rw [hk, Py.bind_lift_ok rfl] at h
      have href := (vbGetitem_refers env s.model k n).1 hk
      by_cases hu : env.hasUpdate n = true
      · rcases hr : env.update n s.world with ⟨_ | _, w1⟩
        · rw [Py.bind_error (s' := { s with world := w1 })
            (by unfold runUpdate; rw [if_pos hu, hr])] at h
          cases h
        · rw [Py.bind_ok (s' := { s with world := w1 })
            (by unfold runUpdate; rw [if_pos hu, hr])] at h
          exact .update href hu hr (ih { s with world := w1 } h)
      · rw [Py.bind_ok (s' := s) (by unfold runUpdate; rw [if_neg hu])] at h
        exact .skip href (by simpa using hu) (ih s h)

theorem take_set_append {α : Type _} (a b : List α) (i : Nat) (v : α) (h : i ≤ a.length)
    (h2 : i < (a ++ b).length) : ((a ++ b).set i v).take (i + 1) = a.take i ++ [v] := by
  rw [List.take_succ, List.getElem?_set_self h2, List.take_set_of_le (le_refl i),
    List.take_append_of_le_length h]
  rfl

theorem updateIteration_ok (env : VBEnv ν V O M F) (keys : List (NodeKey ν)) (tol : Option F)
    (s s' : VBState ν V O M F) (hwf : VBWf s) (b : Bool)
    (h : updateIteration env keys tol s = (.ok b, s')) :
    Iteration env keys tol s s' ∧ b = s'.converged ∧ VBWf s' := by
  unfold updateIteration at h
  obtain ⟨w1, hw1⟩ := updateNodes_frame env keys s
  rcases hu : updateNodes env keys s with ⟨_ | _, s1⟩
  · rw [Py.bind_error hu] at h; cases h
  · rw [Py.bind_ok hu] at h
    rw [hu] at hw1
    simp only at hw1
    have hord := updateNodes_ok env keys s s1 hu
    subst hw1
    have hwf1 : VBWf { s with world := w1 } := ⟨hwf.nodup, hwf.iter_le, hwf.len⟩
    obtain ⟨w, c, k, f, hcb, hc, hk, hb, hs'⟩ := endIterationStep_ok env tol _ s' hwf1 b h
    have e_model : s'.model = s.model := by rw [hs']
    have e_iter : s'.iter = s.iter + 1 := by rw [hs']
    have e_world : s'.world = w := by rw [hs']
    have e_L : s'.L = (s.L ++ List.replicate k FloatOps.nan).set s.iter
              (s.model.foldl (fun L n => FloatOps.add L (c n)) FloatOps.zero) := by rw [hs']
    have e_l : ∀ n ∈ s.model, s'.l n
        = (s.l n ++ List.replicate k FloatOps.nan).set s.iter (c n) := by
      intro n hn; rw [hs']; simp [hn]
    have e_conv : s'.converged = convergedFlag { s with world := w1 } s'.L tol := by
      conv_lhs => rw [hs']
    have e_set : s'.ignoreBoundChecks = s.ignoreBoundChecks ∧ s'.annealingChanged = false ∧
        s'.tol = s.tol ∧ s'.autosaveIterations = s.autosaveIterations ∧
        s'.autosaveNodes = s.autosaveNodes := by
      rw [hs']; exact ⟨rfl, rfl, rfl, rfl, rfl⟩
    have hlenL : s'.L.length = s.L.length + k := by rw [e_L]; simp
    simp only at hk hcb hc
    refine ⟨⟨⟨w1, hord, by rw [e_world]; exact hcb⟩, e_model, e_iter, ⟨c, ?_, ?_, ?_⟩, ?_, e_set⟩,
      hb, ?_, ?_, ?_⟩
    · rw [e_world]; exact hc
    · intro n hn
      rw [e_l n hn]
      exact take_set_append _ _ _ _ (by rw [hwf.len n hn]; exact hwf.iter_le)
        (by rw [List.length_append, hwf.len n hn, List.length_replicate]; exact hk)
    · rw [e_L]
      exact take_set_append _ _ _ _ hwf.iter_le (by simpa using hk)
    · rw [e_conv]
      unfold convergedFlag convergenceTest
      simp only [Bool.and_eq_true, Bool.not_eq_true', decide_eq_true_eq]
      have g1 : s'.L[s.iter]? = some (s'.L.getD s.iter FloatOps.nan) := by
        rw [List.getD_eq_getElem?_getD, List.getElem?_eq_getElem (by omega)]; rfl
      have g0 : s'.L[s.iter - 1]? = some (s'.L.getD (s.iter - 1) FloatOps.nan) := by
        rw [List.getD_eq_getElem?_getD, List.getElem?_eq_getElem (by omega)]; rfl
      constructor
      · rintro ⟨⟨⟨h1, h2⟩, h3⟩, h4⟩
        exact ⟨h1, h2, _, _, g1, h3, g0, h4⟩
      · rintro ⟨h1, h2, a, b, hb, h3, ha, h4⟩
        rw [g1] at hb
        rw [g0] at ha
        injection hb with hb
        injection ha with ha
        subst hb; subst ha
        exact ⟨⟨⟨h1, h2⟩, h3⟩, h4⟩
    · rw [e_model]; exact hwf.nodup
    · rw [e_iter, hlenL]; omega
    · intro n hn
      rw [e_model] at hn
      rw [e_l n hn, hlenL]
      simp [hwf.len n hn]

/-- The loop of `update` performs a chain of completed iterations; no state inside the chain is
converged; the loop is left early exactly at the first converged iteration. -/
theorem updateLoop_chain (env : VBEnv ν V O M F) (keys : List (NodeKey ν)) (tol : Option F)
    (n : Nat) (s s' : VBState ν V O M F) (hwf : VBWf s) (b : Bool)
    (h : updateLoop env keys tol n s = (.ok b, s')) :
    VBWf s' ∧ ∃ k ≤ n, ∃ st : Nat → VBState ν V O M F, st 0 = s ∧ st k = s' ∧
      (∀ i < k, Iteration env keys tol (st i) (st (i + 1))) ∧
      (∀ i < k, 0 < i → (st i).converged = false) ∧
      (b = true → 0 < k ∧ s'.converged = true) ∧
      (b = false → k = n ∧ (0 < k → s'.converged = false)) := by
  induction n generalizing s with
  | zero =>
    injection h with h1 h2
    injection h1 with h1
    subst h1; subst h2
    exact ⟨hwf, 0, le_refl 0, fun _ => s, rfl, rfl, by simp, by simp, by simp, by simp⟩
  | succ n ih =>
    unfold updateLoop at h
    rcases hi : updateIteration env keys tol s with ⟨_ | c, s1⟩
    · rw [Py.bind_error hi] at h; cases h
    · rw [Py.bind_ok hi] at h
      obtain ⟨hit, hc, hwf1⟩ := updateIteration_ok env keys tol s s1 hwf c hi
      cases hcb : c with
      | true =>
        rw [hcb, if_pos rfl] at h
        injection h with h1 h2
        injection h1 with h1
        subst h1; subst h2
        refine ⟨hwf1, 1, by omega, fun i => if i = 0 then s else s1, by simp, by simp, ?_, ?_, ?_, ?_⟩
        · intro i hi; have : i = 0 := by omega
          subst this; simpa using hit
        · intro i h1 h2; omega
        · intro _; exact ⟨by omega, by rw [← hc, hcb]⟩
        · intro hh; cases hh
      | false =>
        rw [hcb, if_neg (by simp)] at h
        obtain ⟨hwf', k, hk, st, h0, hlast, hchain, hmid, ht, hf⟩ := ih s1 hwf1 h
        have hs1 : s1.converged = false := by rw [← hc, hcb]
        refine ⟨hwf', k + 1, by omega, fun i => if i = 0 then s else st (i - 1), by simp, by simpa using hlast,
          ?_, ?_, ?_, ?_⟩
        · intro i hi
          by_cases hi0 : i = 0
          · subst hi0; simp [h0, hit]
          · have := hchain (i - 1) (by omega)
            rw [show i - 1 + 1 = i by omega] at this
            simpa [hi0] using this
        · intro i hi hpos
          by_cases hi1 : i = 1
          · subst hi1; simp [h0, hs1]
          · have := hmid (i - 1) (by omega) (by omega)
            simpa [show i ≠ 0 by omega] using this
        · intro hb; exact ⟨by omega, (ht hb).2⟩
        · intro hb
          refine ⟨by rw [(hf hb).1], fun _ => ?_⟩
          by_cases hk0 : k = 0
          · subst hk0; rw [← hlast, h0]; exact hs1
          · exact (hf hb).2 (by omega)

theorem vbInit_wf (env : VBEnv ν V O M F) (nodes : List ν) (tol : F) (it : Nat)
    (w : ν → NodeState V O M F) (f : Option (H5 V O F)) (s : VBState ν V O M F)
    (h : vbInit env nodes tol it w f = .ok s) : VBWf s := by
  unfold vbInit at h
  simp only [List.length_map, ne_eq, not_true, if_false] at h
  injection h with h
  subst h
  exact ⟨(C44_unique nodes).2.1, by simp, by simp⟩

/-- If an update raises, the iterations before the failing one were complete and not converged. -/
theorem updateLoop_error (env : VBEnv ν V O M F) (keys : List (NodeKey ν)) (tol : Option F)
    (n : Nat) (s s' : VBState ν V O M F) (hwf : VBWf s) (e : PyErr)
    (h : updateLoop env keys tol n s = (.error e, s')) :
    ∃ k < n, ∃ st : Nat → VBState ν V O M F, st 0 = s ∧
      (∀ i < k, Iteration env keys tol (st i) (st (i + 1)) ∧ (st (i + 1)).converged = false) ∧
      VBWf (st k) ∧ updateIteration env keys tol (st k) = (.error e, s') := by
  induction n generalizing s with
  | zero => injection h with h1 _; cases h1
  | succ n ih =>
    unfold updateLoop at h
    rcases hi : updateIteration env keys tol s with ⟨e1 | c, s1⟩
    · rw [Py.bind_error hi] at h
      exact ⟨0, by omega, fun _ => s, rfl, by simp, hwf, by rw [hi, h]⟩
    · rw [Py.bind_ok hi] at h
      obtain ⟨hit, hc, hwf1⟩ := updateIteration_ok env keys tol s s1 hwf c hi
      cases hcb : c with
      | true => rw [hcb, if_pos rfl] at h; injection h with h1 _; cases h1
      | false =>
        rw [hcb, if_neg (by simp)] at h
        obtain ⟨k, hk, st, h0, hchain, hwfk, hlast⟩ := ih s1 hwf1 h
        refine ⟨k + 1, by omega, fun i => if i = 0 then s else st (i - 1), by simp, ?_,
          by simpa using hwfk, by simpa using hlast⟩
        intro i hi
        by_cases hi0 : i = 0
        · subst hi0; simp [h0, hit, ← hc, hcb]
        · have := hchain (i - 1) (by omega)
          rw [show i - 1 + 1 = i by omega] at this
          simpa [hi0] using this

/-! ## Histories -/

/-- Execute one operation of a history. -/
def runOp (env : VBEnv ν V O M F) : VBOp ν V O M F → Py (VBState ν V O M F) Unit
  | .update keys rep tol => vbUpdate env keys rep tol
  | .endStep tol => do let _ ← endIterationStep env tol; return ()
  | .nodes f => Py.modify fun s => { s with world := f s.world }
  | .setAnnealing a => setAnnealing a
  | .ignoreBoundChecks b => Py.modify fun s => { s with ignoreBoundChecks := b }
  | .save keys => vbSave env keys
  | .setAutosave iters nodes => Py.modify fun s =>
      { s with autosaveIterations := iters, autosaveNodes := nodes }

/-- A history of operations; an exception ends an operation, and the user goes on with the state
reached. -/
def runHistory (env : VBEnv ν V O M F) (s : VBState ν V O M F) (ops : List (VBOp ν V O M F)) :
    VBState ν V O M F :=
  ops.foldl (fun s op => (runOp env op s).2) s

/-- `s` is reached from a newly constructed engine. -/
def VBReachable (env : VBEnv ν V O M F) (s : VBState ν V O M F) : Prop :=
  ∃ nodes tol it w f s0 ops, vbInit env nodes tol it w f = .ok s0 ∧ s = runHistory env s0 ops

/-- Every completed entry of the history is the sum of the nodes' entries. -/
def SumsMatch (s : VBState ν V O M F) : Prop :=
  ∀ i < s.iter, ∃ c : ν → F, (∀ n ∈ s.model, (s.l n)[i]? = some (c n)) ∧
    s.L[i]? = some (s.model.foldl (fun t n => FloatOps.add t (c n)) FloatOps.zero)

/-- The history of `s` is a prefix of that of `s'`. -/
structure Extends (s s' : VBState ν V O M F) : Prop where
  model : s'.model = s.model
  iter : s.iter ≤ s'.iter
  L : ∀ i < s.iter, s'.L[i]? = s.L[i]?
  l : ∀ n ∈ s.model, ∀ i < s.iter, (s'.l n)[i]? = (s.l n)[i]?

theorem Extends.refl (s : VBState ν V O M F) : Extends s s :=
  ⟨rfl, le_refl _, fun _ _ => rfl, fun _ _ _ _ => rfl⟩

theorem Extends.trans {s t u : VBState ν V O M F} (h : Extends s t) (h' : Extends t u) :
    Extends s u :=
  ⟨by rw [h'.model, h.model], le_trans h.iter h'.iter,
    fun i hi => by rw [h'.L i (lt_of_lt_of_le hi h.iter), h.L i hi],
    fun n hn i hi => by
      rw [h'.l n (by rw [h.model]; exact hn) i (lt_of_lt_of_le hi h.iter), h.l n hn i hi]⟩

/-- The invariant carried through histories. -/
def Good (s s' : VBState ν V O M F) : Prop :=
  VBWf s → SumsMatch s → VBWf s' ∧ SumsMatch s' ∧ Extends s s'

theorem Good.trans {s t u : VBState ν V O M F} (h : Good s t) (h' : Good t u) : Good s u := by
  intro hw hs
  obtain ⟨a, b, c⟩ := h hw hs
  obtain ⟨a', b', c'⟩ := h' a b
  exact ⟨a', b', c.trans c'⟩

/-- Changes that leave the history alone. -/
theorem Good.of_eq {s s' : VBState ν V O M F} (hm : s'.model = s.model) (hi : s'.iter = s.iter)
    (hL : s'.L = s.L) (hl : s'.l = s.l) : Good s s' := by
  intro hw hs
  refine ⟨⟨by rw [hm]; exact hw.nodup, by rw [hi, hL]; exact hw.iter_le, ?_⟩, ?_, hm, by rw [hi], ?_, ?_⟩
  · intro n hn; rw [hm] at hn; rw [hl, hL]; exact hw.len n hn
  · intro i h; rw [hi] at h; rw [hm, hL, hl]; exact hs i h
  · intro i _; rw [hL]
  · intro n _ i _; rw [hl]

theorem getElem?_set_append_lt {α : Type _} (a b : List α) (j : Nat) (v : α) (i : Nat) (hij : i < j)
    (hj : j ≤ a.length) : ((a ++ b).set j v)[i]? = a[i]? := by
  rw [List.getElem?_set_ne (by omega), List.getElem?_append_left (by omega)]

theorem endIterationStep_good (env : VBEnv ν V O M F) (tol : Option F) (s : VBState ν V O M F) :
    Good s (endIterationStep env tol s).2 := by
  intro hw hs
  rcases h : endIterationStep env tol s with ⟨e | b, s'⟩
  · obtain ⟨hm, hi, k, hL, hl⟩ := endIterationStep_error env tol s s' hw e h
    have hLlen : s'.L.length = s.L.length + k := by
      rcases hL with hL | ⟨v, hL⟩ <;> rw [hL] <;> simp
    have hLi : ∀ i < s.iter, s'.L[i]? = s.L[i]? := by
      intro i hi'
      have := hw.iter_le
      rcases hL with hL | ⟨v, hL⟩ <;> rw [hL]
      · rw [List.getElem?_append_left (by omega)]
      · exact getElem?_set_append_lt _ _ _ _ _ hi' hw.iter_le
    have hli : ∀ n ∈ s.model, ∀ i < s.iter, (s'.l n)[i]? = (s.l n)[i]? := by
      intro n hn i hi'
      have h1 := hw.iter_le
      have h2 := hw.len n hn
      rcases hl n hn with hl | ⟨v, hl⟩ <;> rw [hl]
      · rw [List.getElem?_append_left (by omega)]
      · exact getElem?_set_append_lt _ _ _ _ _ hi' (by omega)
    refine ⟨⟨by rw [hm]; exact hw.nodup, ?_, ?_⟩, ?_, hm, le_of_eq hi.symm, hLi, hli⟩
    · show s'.iter ≤ s'.L.length
      rw [hi, hLlen]; have := hw.iter_le; omega
    · intro n hn
      show (s'.l n).length = s'.L.length
      have hn' : n ∈ s.model := by rw [← hm]; exact hn
      rw [hLlen]
      rcases hl n hn' with hl | ⟨v, hl⟩ <;> rw [hl] <;> simp [hw.len n hn']
    · intro i hi'
      have hi'' : i < s.iter := by rw [← hi]; exact hi'
      obtain ⟨c, h1, h2⟩ := hs i hi''
      refine ⟨c, ?_, ?_⟩
      · intro n hn
        have hn' : n ∈ s.model := by rw [← hm]; exact hn
        show (s'.l n)[i]? = _
        rw [hli n hn' i hi'', h1 n hn']
      · show s'.L[i]? = some (List.foldl _ _ s'.model)
        rw [hLi i hi'', h2, hm]
  · obtain ⟨w, c, k, f, hcb, hc, hk, hb, hs'⟩ := endIterationStep_ok env tol s s' hw b h
    have e_model : s'.model = s.model := by rw [hs']
    have e_iter : s'.iter = s.iter + 1 := by rw [hs']
    have e_L : s'.L = (s.L ++ List.replicate k FloatOps.nan).set s.iter
              (s.model.foldl (fun L n => FloatOps.add L (c n)) FloatOps.zero) := by rw [hs']
    have e_l : ∀ n ∈ s.model, s'.l n
        = (s.l n ++ List.replicate k FloatOps.nan).set s.iter (c n) := by
      intro n hn; rw [hs']; simp [hn]
    have hLlen : s'.L.length = s.L.length + k := by rw [e_L]; simp
    have hLi : ∀ i < s.iter, s'.L[i]? = s.L[i]? := by
      intro i hi
      rw [e_L]; exact getElem?_set_append_lt _ _ _ _ _ hi hw.iter_le
    have hli : ∀ n ∈ s.model, ∀ i < s.iter, (s'.l n)[i]? = (s.l n)[i]? := by
      intro n hn i hi
      rw [e_l n hn]
      exact getElem?_set_append_lt _ _ _ _ _ hi (by rw [hw.len n hn]; exact hw.iter_le)
    refine ⟨⟨by rw [e_model]; exact hw.nodup, ?_, ?_⟩, ?_, e_model, by rw [e_iter]; omega, hLi, hli⟩
    · show s'.iter ≤ s'.L.length
      rw [e_iter, hLlen]; omega
    · intro n hn
      show (s'.l n).length = s'.L.length
      have hn' : n ∈ s.model := by rw [← e_model]; exact hn
      rw [hLlen, e_l n hn']; simp [hw.len n hn']
    · intro i hi
      change i < s'.iter at hi
      show ∃ c : ν → F, (∀ n ∈ s'.model, (s'.l n)[i]? = some (c n)) ∧ s'.L[i]? = _
      rw [e_iter] at hi
      by_cases hii : i < s.iter
      · obtain ⟨c, h1, h2⟩ := hs i hii
        refine ⟨c, ?_, ?_⟩
        · intro n hn
          rw [e_model] at hn
          rw [hli n hn i hii, h1 n hn]
        · rw [hLi i hii, h2]; show _ = some (List.foldl _ _ s'.model); rw [e_model]
      · have : i = s.iter := by omega
        subst this
        refine ⟨c, ?_, ?_⟩
        · intro n hn
          rw [e_model] at hn
          rw [e_l n hn, List.getElem?_set_self (by
            rw [List.length_append, hw.len n hn, List.length_replicate]; exact hk)]
        · rw [e_L, List.getElem?_set_self (by simpa using hk)]
          show _ = some (List.foldl _ _ s'.model)
          rw [e_model]

theorem updateIteration_good (env : VBEnv ν V O M F) (keys : List (NodeKey ν)) (tol : Option F)
    (s : VBState ν V O M F) : Good s (updateIteration env keys tol s).2 := by
  unfold updateIteration
  obtain ⟨w, hw⟩ := updateNodes_frame env keys s
  have hg : Good s (updateNodes env keys s).2 := by rw [hw]; exact Good.of_eq rfl rfl rfl rfl
  rcases h : updateNodes env keys s with ⟨e | _, s1⟩
  · rw [Py.bind_error h]; rw [h] at hg; exact hg
  · rw [Py.bind_ok h]; rw [h] at hg
    exact hg.trans (endIterationStep_good env tol s1)

theorem updateLoop_good (env : VBEnv ν V O M F) (keys : List (NodeKey ν)) (tol : Option F) (n : Nat)
    (s : VBState ν V O M F) : Good s (updateLoop env keys tol n s).2 := by
  induction n generalizing s with
  | zero => exact Good.of_eq rfl rfl rfl rfl
  | succ n ih =>
    unfold updateLoop
    have hg := updateIteration_good env keys tol s
    rcases h : updateIteration env keys tol s with ⟨e | b, s1⟩
    · rw [Py.bind_error h]; rw [h] at hg; exact hg
    · rw [Py.bind_ok h]; rw [h] at hg
      cases b with
      | true => rw [if_pos rfl]; exact hg
      | false => rw [if_neg (by simp)]; exact hg.trans (ih s1)

theorem vbUpdate_good (env : VBEnv ν V O M F) (keys : List (NodeKey ν)) (rep : Nat) (tol : Option F)
    (s : VBState ν V O M F) : Good s (vbUpdate env keys rep tol s).2 := by
  unfold vbUpdate
  rw [Py.bind_get]
  have hg := updateLoop_good env (if keys.length = 0 then s.model.map .node else keys) tol rep s
  rcases h : updateLoop env (if keys.length = 0 then s.model.map .node else keys) tol rep s
    with ⟨e | b, s1⟩
  · rw [Py.bind_error h]; rw [h] at hg; exact hg
  · rw [Py.bind_ok h]; rw [h] at hg; exact hg

theorem runOp_good (env : VBEnv ν V O M F) (op : VBOp ν V O M F) (s : VBState ν V O M F) :
    Good s (runOp env op s).2 := by
  cases op with
  | update keys rep tol => exact vbUpdate_good env keys rep tol s
  | endStep tol =>
    have hg := endIterationStep_good env tol s
    simp only [runOp]
    rcases h : endIterationStep env tol s with ⟨e | b, s1⟩
    · rw [Py.bind_error h]; rw [h] at hg; exact hg
    · rw [Py.bind_ok h]; rw [h] at hg; exact hg
  | nodes f => exact Good.of_eq rfl rfl rfl rfl
  | setAnnealing a => exact Good.of_eq rfl rfl rfl rfl
  | ignoreBoundChecks b => exact Good.of_eq rfl rfl rfl rfl
  | save keys =>
    obtain ⟨f, hf⟩ := vbSaveCrash_frame env none keys s
    have : (runOp env (.save keys) s).2 = { s with file := f } := hf
    rw [this]
    exact Good.of_eq rfl rfl rfl rfl
  | setAutosave iters nodes => exact Good.of_eq rfl rfl rfl rfl

theorem runHistory_good (env : VBEnv ν V O M F) (ops : List (VBOp ν V O M F))
    (s : VBState ν V O M F) : Good s (runHistory env s ops) := by
  induction ops generalizing s with
  | nil => exact Good.of_eq rfl rfl rfl rfl
  | cons op ops ih => exact (runOp_good env op s).trans (ih _)

theorem vbInit_sums (env : VBEnv ν V O M F) (nodes : List ν) (tol : F) (it : Nat)
    (w : ν → NodeState V O M F) (f : Option (H5 V O F)) (s : VBState ν V O M F)
    (h : vbInit env nodes tol it w f = .ok s) : SumsMatch s := by
  unfold vbInit at h
  simp only [List.length_map, ne_eq, not_true, if_false] at h
  injection h with h
  subst h
  intro i hi
  simp at hi

theorem VBReachable.wf {env : VBEnv ν V O M F} {s : VBState ν V O M F} (h : VBReachable env s) :
    VBWf s ∧ SumsMatch s := by
  obtain ⟨nodes, tol, it, w, f, s0, ops, h0, rfl⟩ := h
  obtain ⟨a, b, _⟩ := runHistory_good env ops s0 (vbInit_wf env nodes tol it w f s0 h0)
    (vbInit_sums env nodes tol it w f s0 h0)
  exact ⟨a, b⟩

/-! ## The property theorems -/

/-- C36.  `update(*keys, repeat=n)` that does not raise performs a number `k ≤ n` of complete
iterations: none before the last one converged, and if `k < n` the last one did. -/
theorem C36_update (env : VBEnv ν V O M F) (keys : List (NodeKey ν)) (n : Nat) (tol : Option F)
    (s s' : VBState ν V O M F) (hr : VBReachable env s)
    (h : vbUpdate env keys n tol s = (.ok (), s')) :
    ∃ k ≤ n, ∃ st : Nat → VBState ν V O M F, st 0 = s ∧ st k = s' ∧
      (∀ i < k, Iteration env (if keys = [] then s.model.map .node else keys) tol
        (st i) (st (i + 1))) ∧
      (∀ i < k, 0 < i → (st i).converged = false) ∧
      (k < n → 0 < k ∧ s'.converged = true) ∧ s'.iter = s.iter + k := by
  unfold vbUpdate at h
  rw [Py.bind_get] at h
  have hkeys : (if keys.length = 0 then s.model.map .node else keys)
      = (if keys = [] then s.model.map .node else keys) := by
    cases keys <;> simp
  rw [hkeys] at h
  rcases hl : updateLoop env (if keys = [] then s.model.map .node else keys) tol n s
    with ⟨e | b, s1⟩
  · rw [Py.bind_error hl] at h; cases h
  · rw [Py.bind_ok hl] at h
    have : s1 = s' := by injection h
    subst this
    obtain ⟨_, k, hk, st, h0, hlast, hchain, hmid, ht, hf⟩ :=
      updateLoop_chain env _ tol n s s1 hr.wf.1 b hl
    refine ⟨k, hk, st, h0, hlast, hchain, hmid, ?_, ?_⟩
    · intro hlt
      cases b with
      | true => exact ht rfl
      | false => exact absurd (hf rfl).1 (by omega)
    · have : ∀ i ≤ k, (st i).iter = s.iter + i := by
        intro i
        induction i with
        | zero => intro _; rw [h0]; rfl
        | succ i ih => intro hi; rw [(hchain i (by omega)).iter, ih (by omega)]; omega
      rw [← hlast, this k (le_refl k)]

/-- C36.  If `update` raises, fewer than `n` iterations were completed, none of them converged, and
the exception is that of the next iteration. -/
theorem C36_update_raises (env : VBEnv ν V O M F) (keys : List (NodeKey ν)) (n : Nat)
    (tol : Option F) (s s' : VBState ν V O M F) (hr : VBReachable env s) (e : PyErr)
    (h : vbUpdate env keys n tol s = (.error e, s')) :
    ∃ k < n, ∃ st : Nat → VBState ν V O M F, st 0 = s ∧
      (∀ i < k, Iteration env (if keys = [] then s.model.map .node else keys) tol
        (st i) (st (i + 1)) ∧ (st (i + 1)).converged = false) ∧
      updateIteration env (if keys = [] then s.model.map .node else keys) tol (st k)
        = (.error e, s') := by
  unfold vbUpdate at h
  rw [Py.bind_get] at h
  have hkeys : (if keys.length = 0 then s.model.map .node else keys)
      = (if keys = [] then s.model.map .node else keys) := by
    cases keys <;> simp
  rw [hkeys] at h
  rcases hl : updateLoop env (if keys = [] then s.model.map .node else keys) tol n s
    with ⟨e1 | b, s1⟩
  · rw [Py.bind_error hl] at h
    injection h with h1 h2
    injection h1 with h1
    subst h1; subst h2
    obtain ⟨k, hk, st, h0, hc, _, hlast⟩ := updateLoop_error env _ tol n s s1 hr.wf.1 e1 hl
    exact ⟨k, hk, st, h0, hc, hlast⟩
  · rw [Py.bind_ok hl] at h; cases h

/-- C36.  With `repeat=None` the loop is followed for any number of passes `n`: it has returned only
if the last iteration converged, and otherwise it has made `n` iterations without converging. -/
theorem C36_repeat_none (env : VBEnv ν V O M F) (keys : List (NodeKey ν)) (n : Nat)
    (tol : Option F) (s s' : VBState ν V O M F) (hr : VBReachable env s) (returned : Bool)
    (h : updateLoop env keys tol n s = (.ok returned, s')) :
    ∃ k ≤ n, ∃ st : Nat → VBState ν V O M F, st 0 = s ∧ st k = s' ∧
      (∀ i < k, Iteration env keys tol (st i) (st (i + 1))) ∧
      (∀ i < k, 0 < i → (st i).converged = false) ∧
      (returned = true → 0 < k ∧ s'.converged = true) ∧
      (returned = false → k = n ∧ (0 < k → s'.converged = false)) :=
  (updateLoop_chain env keys tol n s s' hr.wf.1 returned h).2

/-- C37.  Whatever happens later (`ops`, including failing operations), the first `iter` entries of
the bound history and of every node's history stay as they are. -/
theorem C37_append_only (env : VBEnv ν V O M F) (s : VBState ν V O M F) (hr : VBReachable env s)
    (ops : List (VBOp ν V O M F)) :
    s.iter ≤ (runHistory env s ops).iter ∧
    (runHistory env s ops).L.take s.iter = s.L.take s.iter ∧
    ∀ n ∈ s.model, ((runHistory env s ops).l n).take s.iter = (s.l n).take s.iter := by
  obtain ⟨_, _, hx⟩ := runHistory_good env ops s hr.wf.1 hr.wf.2
  refine ⟨hx.iter, ?_, ?_⟩
  · apply List.ext_getElem?
    intro i
    by_cases hi : i < s.iter
    · rw [List.getElem?_take_of_lt hi, List.getElem?_take_of_lt hi, hx.L i hi]
    · rw [List.getElem?_take_eq_none (by omega), List.getElem?_take_eq_none (by omega)]
  · intro n hn
    apply List.ext_getElem?
    intro i
    by_cases hi : i < s.iter
    · rw [List.getElem?_take_of_lt hi, List.getElem?_take_of_lt hi, hx.l n hn i hi]
    · rw [List.getElem?_take_eq_none (by omega), List.getElem?_take_eq_none (by omega)]

/-- C37.  Entry `i` of the bound history is the sum of the entries `i` of the nodes. -/
theorem C37_sum (env : VBEnv ν V O M F) (s : VBState ν V O M F) (hr : VBReachable env s)
    (i : Nat) (hi : i < s.iter) :
    ∃ c : ν → F, (∀ n ∈ s.model, (s.l n)[i]? = some (c n)) ∧
      s.L[i]? = some (s.model.foldl (fun t n => FloatOps.add t (c n)) FloatOps.zero) :=
  hr.wf.2 i hi

end

/-! ## C40 -/

section
variable {ν V O M F : Type _} [DecidableEq ν] [FloatOps F]

/-- C40, partial: if the names of the nodes are different, indexing by name returns the node with
that name.  (Missing: that constructing with equal names raises, which the code does not do, see
`C40_equal_names_counterexample`.) -/
theorem C40_index_by_name_partial (env : VBEnv ν V O M F) (nodes : List ν) (tol : F) (it : Nat)
    (w : ν → NodeState V O M F) (f : Option (H5 V O F)) (s : VBState ν V O M F)
    (h : vbInit env nodes tol it w f = .ok s)
    (hn : ∀ a ∈ nodes, ∀ b ∈ nodes, env.name a = env.name b → a = b) :
    ∀ n ∈ nodes, vbGetitem env s.model (.name (env.name n)) = .ok n := by
  unfold vbInit at h
  simp only [List.length_map, ne_eq, not_true, if_false] at h
  injection h with h
  subst h
  intro n hmem
  have hmem' := ((C44_unique nodes).1 n).2 hmem
  rw [vbGetitem_refers]
  obtain ⟨as, bs, hs⟩ := List.append_of_mem hmem'
  refine ⟨as, bs, hs, rfl, ?_⟩
  intro b hb hname
  have hbm : b ∈ nodes := ((C44_unique nodes).1 b).1 (by rw [hs]; simp [hb])
  have : b = n := hn b hbm n hmem hname
  subst this
  have hnd := (C44_unique nodes).2.1
  rw [hs, List.nodup_append] at hnd
  exact (List.nodup_cons.1 hnd.2.1).1 hb

/-- The construction never raises, whatever the names are. -/
theorem C40_never_raises_refuted (env : VBEnv ν V O M F) (nodes : List ν) (tol : F) (it : Nat)
    (w : ν → NodeState V O M F) (f : Option (H5 V O F)) :
    ∃ s, vbInit env nodes tol it w f = .ok s ∧ s.model = unique nodes := by
  unfold vbInit
  simp only [List.length_map, ne_eq, not_true, if_false]
  exact ⟨_, rfl, rfl⟩

end

/-! ## C41 -/

section
variable {ν V O M F : Type _} [DecidableEq ν] [FloatOps F] [AddCommMonoid F]

theorem foldl_add_eq_sum (hz : (FloatOps.zero : F) = 0) (ha : ∀ a b : F, FloatOps.add a b = a + b)
    (c : ν → F) (l : List ν) (hl : l.Nodup) :
    l.foldl (fun t n => FloatOps.add t (c n)) FloatOps.zero = ∑ n ∈ l.toFinset, c n := by
  rw [List.sum_toFinset c hl, hz]
  have : ∀ t : F, l.foldl (fun t n => FloatOps.add t (c n)) t = t + (l.map c).sum := by
    clear hl
    induction l with
    | nil => intro t; simp
    | cons a l ih => intro t; rw [List.foldl_cons, ih, ha, List.map_cons, List.sum_cons, add_assoc]
  rw [this, zero_add]

/-- C41.  In exact arithmetic `compute_lowerbound()` of `VB(*nodes)` is the sum of the contributions
over the set of the given nodes, and `loglikelihood_lowerbound()` returns the same number; so both
depend neither on the order nor on repetitions. -/
theorem C41_lower_bound (env : VBEnv ν V O M F) (nodes : List ν) (tol : F) (it : Nat)
    (w : ν → NodeState V O M F) (f : Option (H5 V O F)) (s : VBState ν V O M F)
    (h : vbInit env nodes tol it w f = .ok s)
    (hz : (FloatOps.zero : F) = 0) (ha : ∀ a b : F, FloatOps.add a b = a + b)
    (ops : List (VBOp ν V O M F)) (c : ν → F)
    (hc : ∀ n ∈ nodes, env.contribution n (runHistory env s ops).world = .ok (c n)) :
    computeLowerbound env (runHistory env s ops) = .ok (∑ n ∈ nodes.toFinset, c n) ∧
    ∀ L s', loglikelihoodLowerbound env (runHistory env s ops) = (.ok L, s') →
      L = ∑ n ∈ nodes.toFinset, c n := by
  have hm : s.model = unique nodes := by
    obtain ⟨s', hs', hm⟩ := C40_never_raises_refuted env nodes tol it w f
    rw [h] at hs'; injection hs' with hs'; rw [hs']; exact hm
  obtain ⟨hwf, _, hx⟩ := runHistory_good env ops s (vbInit_wf env nodes tol it w f s h)
    (vbInit_sums env nodes tol it w f s h)
  generalize runHistory env s ops = t at *
  have hmt : t.model = unique nodes := by rw [hx.model, hm]
  have hset : nodes.toFinset = t.model.toFinset := by
    ext x; rw [hmt]; simp [(C44_unique nodes).1 x]
  have hct : ∀ n ∈ t.model, env.contribution n t.world = .ok (c n) := by
    intro n hn; apply hc; rw [hmt] at hn; exact ((C44_unique nodes).1 n).1 hn
  have hsum := foldl_add_eq_sum hz ha c t.model hwf.nodup
  rw [hset, ← hsum]
  constructor
  · unfold computeLowerbound
    generalize (FloatOps.zero : F) = z
    generalize t.model = ns at hct
    induction ns generalizing z with
    | nil => rfl
    | cons a ns ih =>
      rw [List.foldlM_cons, hct a (by simp)]
      exact ih _ (fun n hn => hct n (by simp [hn]))
  · intro L s' hL
    unfold loglikelihoodLowerbound at hL
    rw [Py.bind_get] at hL
    obtain ⟨c', h1, h2, _, _⟩ := loglikLoop_ok env t.model hwf.nodup _ t L (by rw [hL])
    rw [h2]
    apply List.foldl_ext
    intro a n hn
    have := h1 n hn
    rw [hct n hn] at this
    injection this with this
    rw [this]

end

/-! ## Concrete instances -/

/-- Integer arithmetic as an instance of the abstract arithmetic (no NaN; only for examples). -/
@[reducible] def intOps : FloatOps Int where
  zero := 0
  nan := -1000
  half := 1
  add := (· + ·)
  sub := (· - ·)
  mul := (· * ·)
  div := fun a b => if b = 0 then 1000 else a / b
  abs := fun a => |a|
  lt := fun a b => decide (a < b)

/-- A small model: node `n` holds a number, updates halve the distance to 10, node 1 has no update
method.  The bound is minus the distance. -/
def exEnv (name : Nat → String) : VBEnv Nat Int Bool Bool Int where
  name := name
  hasUpdate := fun n => n ≠ 1
  savable := fun n => n ≠ 1
  update := fun n w => (.ok (), Function.update w n { w n with data := 10 - (10 - (w n).data) / 2 })
  contribution := fun n w => .ok ((w n).data - 10)
  callback := fun w => (.ok (), w)
  maskOf := fun o n => o n

def exName : Nat → String := fun n => if n = 0 then "a" else if n = 1 then "b" else "c"

def exWorld : Nat → NodeState Int Bool Bool Int := fun _ => ⟨2, false, false, 1⟩

/-- The engine after construction with nodes 0, 1, 2. -/
def exState : VBState Nat Int Bool Bool Int :=
  { model := [0, 1, 2], world := exWorld, iter := 0, annealingChanged := false, converged := false,
    ignoreBoundChecks := false, L := [], l := fun _ => [], tol := 0, autosaveIterations := 0,
    autosaveNodes := none, file := none }

/-- The nodes may be given repeatedly. -/
example : @vbInit Nat Int Bool Bool Int _ (exEnv exName) [0, 1, 0, 2] 0 0 exWorld none = .ok exState :=
  rfl

/-- Two updates by different keys: the bound goes from -24 to -16, -12 (only "a" and "c" improve). -/
example :
    let s := (@vbUpdate _ _ _ _ _ _ intOps (exEnv exName) [.name "c", .node 0] 2 (some (-1)) exState).2
    s.iter = 2 ∧ s.L.take 2 = [-16, -12] ∧ (s.l 1).take 2 = [-8, -8] ∧ s.converged = false := by
  decide +kernel

/-- `update(repeat=10)` stops at the first converged iteration. -/
example :
    let s := (@vbUpdate _ _ _ _ _ _ intOps (exEnv exName) [] 10 (some 1) exState).2
    s.iter = 2 ∧ s.converged = true := by
  decide +kernel

/-- C40, refuted: two distinct nodes with the same name are accepted; the name then refers to the
last one, and saving the model raises. -/
theorem C40_equal_names_counterexample :
    ∃ s, @vbInit Nat Int Bool Bool Int _ (exEnv fun _ => "x") [0, 2] 0 0 exWorld none = .ok s ∧
      s.model = [0, 2] ∧
      vbGetitem (exEnv fun _ => "x") s.model (.name "x") = .ok 2 ∧
      (vbSave (exEnv fun _ => "x") [] s).1 = .error .valueError := by
  refine ⟨_, rfl, rfl, rfl, ?_⟩
  decide +kernel

end Verif
