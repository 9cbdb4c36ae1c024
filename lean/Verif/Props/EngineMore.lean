import Verif.Props.SaveLoad
import Verif.Props.Optimize
import Verif.Props.Converter

/-!
# C35 (registering), C42 (steps of `optimize`), C52 (automatic saves), C53 (annealing)
-/

namespace Verif
open Spec

set_option linter.unusedSectionVars false

section
variable {ν V O M F : Type _} [DecidableEq ν] [FloatOps F]

/-! ## C52 -/

/-- The nodes written by an automatic save. -/
def autosaveKeys (s : VBState ν V O M F) : List (NodeKey ν) :=
  match s.autosaveNodes with
  | some ns => ns.map .node
  | none => []

theorem autosave_eq (env : VBEnv ν V O M F) (s : VBState ν V O M F) :
    autosave env s = if 0 < s.autosaveIterations ∧ s.autosaveIterations ∣ s.iter + 1
      then vbSave env (autosaveKeys s) s else (.ok (), s) := by
  unfold autosave
  rw [Py.bind_get]
  by_cases h : s.autosaveIterations > 0 ∧ (s.iter + 1) % s.autosaveIterations = 0
  · rw [if_pos h, if_pos ⟨h.1, Nat.dvd_of_mod_eq_zero h.2⟩]
    unfold autosaveKeys
    cases s.autosaveNodes <;> rfl
  · rw [if_neg h, if_neg (fun h' => h ⟨h'.1, Nat.mod_eq_zero_of_dvd h'.2⟩)]
    rfl

/-- `save` writes nodes, histories, the counter and the convergence flag only. -/
theorem vbSave_file_congr (env : VBEnv ν V O M F) (keys : List (NodeKey ν)) (s t : VBState ν V O M F)
    (h1 : s.model = t.model) (h2 : s.world = t.world) (h3 : s.L = t.L) (h4 : s.l = t.l)
    (h5 : s.iter = t.iter) (h6 : s.converged = t.converged) :
    (vbSave env keys s).1 = (vbSave env keys t).1 ∧
      ((vbSave env keys s).1 = .ok () → (vbSave env keys s).2.file = (vbSave env keys t).2.file) := by
  have hs : ∀ ns, saveSteps env s ns = saveSteps env t ns := by
    intro ns
    have a : saveNodeStep env s = saveNodeStep env t := by
      funext n f; unfold saveNodeStep; rw [h2]
    have b : saveBoundStep env s = saveBoundStep env t := by
      funext n f; unfold saveBoundStep; rw [h4]
    unfold saveSteps
    rw [a, b, h3, h5, h6]
  unfold vbSave vbSaveCrash
  simp only [h1]
  cases (if keys.length = 0 then Except.ok t.model else List.mapM (vbGetitem env t.model) keys) with
  | error e => exact ⟨rfl, fun h => by cases h⟩
  | ok ns => simp [hs]

/-- **C52** An iteration that ends writes the file if and only if automatic saves are enabled and the
new number of iterations is a multiple of the interval.  The file is then what `save` writes after the
iteration, but with the number of iterations before it. -/
theorem C52_autosave (env : VBEnv ν V O M F) (tol : Option F) (s s' : VBState ν V O M F) (b : Bool)
    (hr : VBReachable env s) (h : endIterationStep env tol s = (.ok b, s')) :
    (¬ (0 < s.autosaveIterations ∧ s.autosaveIterations ∣ s'.iter) → s'.file = s.file) ∧
    (0 < s.autosaveIterations → s.autosaveIterations ∣ s'.iter →
      (vbSave env (autosaveKeys s) { s' with iter := s.iter }).1 = .ok () ∧
      s'.file = (vbSave env (autosaveKeys s) { s' with iter := s.iter }).2.file) := by
  have hwf := hr.wf.1
  obtain ⟨w0, c0, k0, f0, _, _, _, _, hs'⟩ := endIterationStep_ok env tol s s' hwf b h
  have hiter : s'.iter = s.iter + 1 := by rw [hs']
  clear hs'
  obtain ⟨k, hg, hk⟩ := grown_spec s hwf
  rw [endIterationStep_eq, hg] at h
  unfold runCallback at h
  rcases hcb : env.callback s.world with ⟨_ | _, w⟩
  · simp [hcb] at h
  · simp only [hcb] at h
    have hfr := loglikLoop_frame env s.model FloatOps.zero { s with
        world := w
        L := s.L ++ List.replicate k FloatOps.nan
        l := fun n => if n ∈ s.model then s.l n ++ List.replicate k FloatOps.nan else s.l n }
    rcases hll : loglikelihoodLowerbound env { s with
        world := w
        L := s.L ++ List.replicate k FloatOps.nan
        l := fun n => if n ∈ s.model then s.l n ++ List.replicate k FloatOps.nan else s.l n }
        with ⟨_ | L, s2⟩
    · simp [hll] at h
    · simp only [hll] at h
      have hll1 := hll
      unfold loglikelihoodLowerbound at hll1
      rw [Py.bind_get] at hll1
      rw [hll1] at hfr
      obtain ⟨l', hl', _⟩ := hfr
      simp only [] at hl'
      cases hset : setItem s2.L s2.iter L with
      | error e => simp [hset] at h
      | ok a =>
        simp only [hset] at h
        generalize hs3 : ({ s2 with L := a, converged := convergedFlag s2 a tol } :
          VBState ν V O M F) = s3 at h
        have e1 : s3.autosaveIterations = s.autosaveIterations := by rw [← hs3, hl']
        have e2 : s3.autosaveNodes = s.autosaveNodes := by rw [← hs3, hl']
        have e3 : s3.iter = s.iter := by rw [← hs3, hl']
        have e4 : s3.file = s.file := by rw [← hs3, hl']
        have ek : autosaveKeys s3 = autosaveKeys s := by unfold autosaveKeys; rw [e2]
        rw [autosave_eq, e1, e3, ek] at h
        by_cases hc : 0 < s.autosaveIterations ∧ s.autosaveIterations ∣ s.iter + 1
        · rw [if_pos hc] at h
          rcases hsv : vbSave env (autosaveKeys s) s3 with ⟨_ | _, s4⟩
          · simp [hsv] at h
          · simp only [hsv] at h
            obtain ⟨f, hf⟩ := vbSaveCrash_frame env none (autosaveKeys s) s3
            have hsv' : vbSaveCrash env none (autosaveKeys s) s3 = (.ok (), s4) := hsv
            rw [hsv'] at hf
            simp only [] at hf
            injection h with _ h
            refine ⟨fun hn => absurd (by rw [hiter]; exact hc) hn, fun _ _ => ?_⟩
            have key := vbSave_file_congr env (autosaveKeys s) s3 { s' with iter := s.iter }
              (by rw [← h, hf]) (by rw [← h, hf]) (by rw [← h, hf]) (by rw [← h, hf])
              (by rw [e3]) (by rw [← h, hf])
            rw [hsv] at key
            refine ⟨key.1.symm, ?_⟩
            rw [← key.2 rfl, ← h]
        · rw [if_neg hc] at h
          simp only [] at h
          injection h with _ h
          refine ⟨fun _ => by rw [← h]; exact e4, fun h1 h2 => absurd ⟨h1, by rwa [hiter] at h2⟩ hc⟩

/-! ## C53 -/

/-- **C53** `set_annealing` gives the coefficient to the nodes of the model and to no other node, keeps
everything else that the nodes hold, and the next iteration does not end the updates: a change of the
bound caused by the new coefficient is not taken as convergence. -/
theorem C53_annealing (env : VBEnv ν V O M F) (a : F) (s : VBState ν V O M F)
    (hr : VBReachable env s) :
    (∀ n, ((setAnnealing a s).2.world n).annealing =
      if n ∈ s.model then a else (s.world n).annealing) ∧
    (∀ n, ((setAnnealing a s).2.world n).data = (s.world n).data ∧
      ((setAnnealing a s).2.world n).observed = (s.world n).observed ∧
      ((setAnnealing a s).2.world n).mask = (s.world n).mask) ∧
    ∀ keys tol b s', updateIteration env keys tol (setAnnealing a s).2 = (.ok b, s') →
      b = false ∧ s'.converged = false := by
  have hwf := hr.wf.1
  refine ⟨fun n => ?_, fun n => ?_, fun keys tol b s' h => ?_⟩
  · show (if n ∈ s.model then { s.world n with annealing := a } else s.world n).annealing = _
    split <;> rfl
  · show (if n ∈ s.model then { s.world n with annealing := a } else s.world n).data = _ ∧
      (if n ∈ s.model then { s.world n with annealing := a } else s.world n).observed = _ ∧
      (if n ∈ s.model then { s.world n with annealing := a } else s.world n).mask = _
    split <;> exact ⟨rfl, rfl, rfl⟩
  · unfold updateIteration at h
    obtain ⟨w, hw⟩ := updateNodes_frame env keys (setAnnealing a s).2
    rcases hu : updateNodes env keys (setAnnealing a s).2 with ⟨_ | _, s1⟩
    · rw [Py.bind_error hu] at h; cases h
    · rw [Py.bind_ok hu] at h
      rw [hu] at hw
      simp only [] at hw
      have hwf1 : VBWf s1 := by
        rw [hw]
        exact (Good.of_eq (s := s) (s' := { (setAnnealing a s).2 with world := w }) rfl rfl rfl rfl
          hr.wf.1 hr.wf.2).1
      obtain ⟨w0, c0, k0, f0, _, _, _, hb, hs'⟩ := endIterationStep_ok env tol s1 s' hwf1 b h
      have : s'.converged = false := by
        have hc : s'.converged = convergedFlag s1 s'.L tol := by
          conv_lhs => rw [hs']
        rw [hc]
        have ha : s1.annealingChanged = true := by rw [hw]; rfl
        unfold convergedFlag
        simp [ha]
      exact ⟨by rw [hb, this], this⟩

end

/-- Automatic saves every second iteration: nothing after one, a file after two. -/
example :
    let s0 : VBState Nat Int Bool Bool Int := { exState with autosaveIterations := 2 }
    let s := (@vbUpdate _ _ _ _ _ _ intOps (exEnv exName) [] 1 (some (-1)) s0).2
    let t := (@vbUpdate _ _ _ _ _ _ intOps (exEnv exName) [] 2 (some (-1)) s0).2
    s.iter = 1 ∧ s.file.isNone = true ∧ t.iter = 2 ∧ (t.file.bind (·.iter)) = some 1 := by
  decide +kernel

/-- With a tolerance of 1000 the second iteration converges, but not after `set_annealing`. -/
example :
    let s := (@vbUpdate _ _ _ _ _ _ intOps (exEnv exName) [] 1 (some 1000) exState).2
    let t := (setAnnealing (5 : Int) s).2
    (@vbUpdate _ _ _ _ _ _ intOps (exEnv exName) [] 1 (some 1000) s).2.converged = true ∧
    (@vbUpdate _ _ _ _ _ _ intOps (exEnv exName) [] 1 (some 1000) t).2.converged = false ∧
    (t.world 0).annealing = 5 ∧ (t.world 7).annealing = 1 := by
  decide +kernel

section
variable {ν V O M F P : Type _} [DecidableEq ν] [OptOps F]

/-! ## C42: the steps -/

/-- The points visited by `optimize`: each accepted point `q` is the last accepted point `p` plus a
multiple of some direction, the nodes were set to `q` and the collapsed nodes updated, and then the
iteration was recorded. -/
inductive Spec.OptSteps (env : OptEnv ν V O M F P) (keys collapsed : List (NodeKey ν))
    (tol : Option F) : List P → VBState ν V O M F → VBState ν V O M F → Prop
  | done {p s} : OptSteps env keys collapsed tol p s s
  | step {p q dir : List P} {a : F} {b : Bool} {s t t1 t2 s1 r : VBState ν V O M F} :
      addVec env p dir a = .ok q → (∃ w, t = { s with world := w }) →
      setParameters env q keys t = (.ok (), t1) → updateEach env collapsed t1 = (.ok (), t2) →
      endIterationStep env.toVBEnv tol t2 = (.ok b, s1) →
      OptSteps env keys collapsed tol q s1 r → OptSteps env keys collapsed tol p s r

theorem searchLoop_point (env : OptEnv ν V O M F P) (keys collapsed : List (NodeKey ν))
    (p g2 : List P) (fuel : Nat) (v v' : Search F P) (q : List P) (s s' : VBState ν V O M F)
    (h : searchLoop env keys collapsed p g2 fuel v s = (.ok (some (v', q)), s')) :
    addVec env p v'.dir v'.scale = .ok q ∧
    ∃ t t1, (∃ w, t = { s with world := w }) ∧ setParameters env q keys t = (.ok (), t1) ∧
      updateEach env collapsed t1 = (.ok (), s') := by
  induction fuel generalizing v s with
  | zero => cases h
  | succ fuel ih =>
    have again : ∀ (v1 : Search F P) (s1 : VBState ν V O M F), (∃ w, s1 = { s with world := w }) →
        searchLoop env keys collapsed p g2 fuel v1 s1 = (.ok (some (v', q)), s') →
        addVec env p v'.dir v'.scale = .ok q ∧
        ∃ t t1, (∃ w, t = { s with world := w }) ∧ setParameters env q keys t = (.ok (), t1) ∧
          updateEach env collapsed t1 = (.ok (), s') := by
      rintro v1 s1 ⟨w, rfl⟩ h
      obtain ⟨h1, t, t1, ⟨w', hw'⟩, h2, h3⟩ := ih v1 _ h
      exact ⟨h1, t, t1, ⟨w', by rw [hw']⟩, h2, h3⟩
    unfold searchLoop at h
    cases hadd : addVec env p v.dir v.scale with
    | error e => rw [hadd] at h; cases h
    | ok pNew =>
      rw [hadd] at h
      simp only [] at h
      have hf1 := setParameters_frame env pNew keys s
      rcases hset : setParameters env pNew keys s with ⟨e | _, s1⟩
      · rw [hset] at hf1 h
        exact again _ _ hf1 h
      · rw [hset] at hf1 h
        simp only [] at hf1 h
        cases hget : getParameters env collapsed s1 with
        | error e => rw [hget] at h; cases h
        | ok cp =>
          rw [hget] at h
          simp only [] at h
          have hf2 := updateEach_frame env collapsed s1
          have restore : ∀ s2 : VBState ν V O M F, (∃ w, s2 = { s1 with world := w }) →
              ∃ w, (setParameters env cp collapsed s2).2 = { s with world := w } := by
            rintro s2 ⟨w, rfl⟩
            obtain ⟨w1, hw1⟩ := hf1
            obtain ⟨w2, hw2⟩ := setParameters_frame env cp collapsed { s1 with world := w }
            exact ⟨w2, by rw [hw2, hw1]⟩
          rcases hup : updateEach env collapsed s1 with ⟨e | _, s2⟩
          · rw [hup] at hf2 h
            simp only [] at hf2 h
            have hr := restore s2 hf2
            rcases hset2 : setParameters env cp collapsed s2 with ⟨e | _, s3⟩
            · rw [hset2] at h; cases h
            · rw [hset2] at hr h
              exact again _ _ hr h
          · rw [hup] at hf2 h
            simp only [] at hf2 h
            cases hL : computeLowerbound env.toVBEnv s2 with
            | error e => rw [hL] at h; cases h
            | ok L =>
              rw [hL] at h
              simp only [] at h
              by_cases hrej : rejects s2 L = true
              · rw [if_pos hrej] at h
                have hr := restore s2 hf2
                rcases hset2 : setParameters env cp collapsed s2 with ⟨e | _, s3⟩
                · rw [hset2] at h; cases h
                · rw [hset2] at hr h
                  exact again _ _ hr h
              · rw [if_neg hrej] at h
                injection h with h1 h2
                injection h1 with h1
                injection h1 with h1
                injection h1 with h1 h3
                subst h1 h2 h3
                exact ⟨hadd, s, s1, ⟨s.world, rfl⟩, hset, hup⟩

theorem optimizeLoop_steps (env : OptEnv ν V O M F P) (keys collapsed : List (NodeKey ν))
    (fletcher riem : Bool) (tol : Option F) (fuel n : Nat) (p : List P) (v : Search F P)
    (s s' : VBState ν V O M F)
    (h : optimizeLoop env keys collapsed fletcher riem tol fuel n p v s = (.ok (some ()), s')) :
    OptSteps env keys collapsed tol p s s' := by
  induction n generalizing p v s with
  | zero =>
    injection h with _ h
    subst h
    exact .done
  | succ n ih =>
    unfold optimizeLoop at h
    cases hdir : direction env keys fletcher riem v s with
    | error e => rw [hdir] at h; cases h
    | ok vg =>
      obtain ⟨v1, g2⟩ := vg
      rw [hdir] at h
      simp only [] at h
      rcases hsl : searchLoop env keys collapsed p g2 fuel v1 s with ⟨e | _ | ⟨v2, q⟩, s1⟩
      · rw [hsl] at h; cases h
      · rw [hsl] at h; cases h
      · rw [hsl] at h
        simp only [] at h
        obtain ⟨h1, t, t1, hw, h2, h3⟩ := searchLoop_point env keys collapsed p g2 fuel v1 v2 q s s1 hsl
        rcases hend : endIterationStep env.toVBEnv tol s1 with ⟨e | b, s2⟩
        · rw [hend] at h; cases h
        · rw [hend] at h
          cases b with
          | true =>
            injection h with _ h
            subst h
            exact .step h1 hw h2 h3 hend .done
          | false => exact .step h1 hw h2 h3 hend (ih _ _ _ h)

/-- **C42** Every accepted point of `optimize` is reached from the last accepted point (rejected points
leave no trace in it), and the nodes are set to it when its bound is recorded.  What is missing: see
`C42_optimize_partial`. -/
theorem C42_steps_partial (env : OptEnv ν V O M F P) (keys collapsed : List (NodeKey ν))
    (maxiter : Nat) (fletcher riem : Bool) (tol : Option F) (fuel : Nat) (s s' : VBState ν V O M F)
    (h : vbOptimize env keys collapsed maxiter fletcher riem tol fuel s = (.ok (some ()), s')) :
    ∃ p, getParameters env keys s = .ok p ∧ OptSteps env keys collapsed tol p s s' := by
  unfold vbOptimize at h
  cases hg : getParameters env keys s with
  | error e => rw [hg] at h; cases h
  | ok p =>
    rw [hg] at h
    exact ⟨p, rfl, optimizeLoop_steps env keys collapsed fletcher riem tol fuel maxiter p _ s s' h⟩

/-- `a` halved `k` times. -/
def Spec.halved (a : F) : Nat → F
  | 0 => a
  | k + 1 => halved (FloatOps.mul a FloatOps.half) k

/-- **C42** (plain gradient steps) The accepted step is the initial one halved as often as points were
tried before it: with fewer tries the search has not ended. -/
theorem C42_halving_partial (env : OptEnv ν V O M F P) (keys collapsed : List (NodeKey ν))
    (p g2 : List P) (fuel : Nat) (v v' : Search F P) (q : List P) (s s' : VBState ν V O M F)
    (hv : v.isG2 = true) (hdir : v.dir = g2)
    (h : searchLoop env keys collapsed p g2 fuel v s = (.ok (some (v', q)), s')) :
    ∃ k < fuel, v'.scale = halved v.scale k ∧ addVec env p g2 (halved v.scale k) = .ok q ∧
      ∀ j ≤ k, (searchLoop env keys collapsed p g2 j v s).1 = .ok none := by
  have hq := (searchLoop_point env keys collapsed p g2 fuel v v' q s s' h).1
  suffices hh : v'.dir = g2 ∧ ∃ k < fuel, v'.scale = halved v.scale k ∧
      ∀ j ≤ k, (searchLoop env keys collapsed p g2 j v s).1 = .ok none by
    obtain ⟨hd, k, h1, h2, h3⟩ := hh
    exact ⟨k, h1, h2, by rw [← h2, ← hd]; exact hq, h3⟩
  clear hq
  induction fuel generalizing v s with
  | zero => cases h
  | succ fuel ih =>
    have again : ∀ (v1 : Search F P) (s1 : VBState ν V O M F), v1.isG2 = true → v1.dir = g2 →
        v1.scale = FloatOps.mul v.scale FloatOps.half →
        (∀ f, searchLoop env keys collapsed p g2 (f + 1) v s =
          searchLoop env keys collapsed p g2 f v1 s1) →
        v'.dir = g2 ∧ ∃ k < fuel + 1, v'.scale = halved v.scale k ∧
          ∀ j ≤ k, (searchLoop env keys collapsed p g2 j v s).1 = .ok none := by
      intro v1 s1 h1 h2 h3 h4
      rw [h4] at h
      obtain ⟨hd, k, hk, hsc, hj⟩ := ih v1 s1 h1 h2 h
      refine ⟨hd, k + 1, by omega, by rw [hsc, h3]; rfl, fun j hjk => ?_⟩
      cases j with
      | zero => rfl
      | succ j => rw [h4]; exact hj j (by omega)
    have hreset : (v.reset g2).scale = FloatOps.mul v.scale FloatOps.half := by
      unfold Search.reset; simp [hv]
    have hshrink : v.shrink g2 = { v with scale := FloatOps.mul v.scale FloatOps.half } := by
      unfold Search.shrink; simp [hv]
    cases hadd : addVec env p v.dir v.scale with
    | error e => unfold searchLoop at h; rw [hadd] at h; cases h
    | ok pNew =>
      rcases hset : setParameters env pNew keys s with ⟨e | _, s1⟩
      · refine again (v.reset g2) s1 rfl rfl hreset fun f => ?_
        conv_lhs => unfold searchLoop
        rw [hadd]; simp only [hset]
      · cases hget : getParameters env collapsed s1 with
        | error e => unfold searchLoop at h; rw [hadd] at h; simp only [hset, hget] at h; cases h
        | ok cp =>
          rcases hup : updateEach env collapsed s1 with ⟨e | _, s2⟩
          · rcases hset2 : setParameters env cp collapsed s2 with ⟨e | _, s3⟩
            · unfold searchLoop at h; rw [hadd] at h; simp only [hset, hget, hup, hset2] at h; cases h
            · refine again (v.reset g2) s3 rfl rfl hreset fun f => ?_
              conv_lhs => unfold searchLoop
              rw [hadd]; simp only [hset, hget, hup, hset2]
          · cases hL : computeLowerbound env.toVBEnv s2 with
            | error e =>
              unfold searchLoop at h; rw [hadd] at h; simp only [hset, hget, hup, hL] at h; cases h
            | ok L =>
              by_cases hrej : rejects s2 L = true
              · rcases hset2 : setParameters env cp collapsed s2 with ⟨e | _, s3⟩
                · unfold searchLoop at h; rw [hadd] at h
                  simp only [hset, hget, hup, hL, if_pos hrej, hset2] at h; cases h
                · refine again (v.shrink g2) s3 (by rw [hshrink]; exact hv) (by rw [hshrink]; exact hdir)
                    (by rw [hshrink]) fun f => ?_
                  conv_lhs => unfold searchLoop
                  rw [hadd]; simp only [hset, hget, hup, hL, if_pos hrej, hset2]
              · unfold searchLoop at h
                rw [hadd] at h
                simp only [hset, hget, hup, hL, if_neg hrej] at h
                injection h with h1 h2
                injection h1 with h1
                injection h1 with h1
                injection h1 with h1 h3
                subst h1
                refine ⟨hdir, 0, by omega, rfl, fun j hj => ?_⟩
                obtain rfl : j = 0 := by omega
                rfl

end

deriving instance DecidableEq for Search

/-- From the second iteration on: the first tried step leads from 1 to -7 and is halved twice, to the
point `1 - 8/4 = -1`, where the bound is the same. -/
example :
    let env := quadEnv 0 none
    let s := (vbUpdate env.toVBEnv [] 1 none (quadState 2)).2
    let r := searchLoop env [.node 0] [] [1] [-8] 10 ⟨1, 0, [-8], true⟩ s
    (∃ v, r.1 = .ok (some (v, [-1])) ∧ v.scale = halved 1 2) ∧ (r.2.world 0).data = -1 := by
  refine ⟨⟨⟨1 / 4, 0, [-8], true⟩, ?_, ?_⟩, ?_⟩ <;> decide +kernel

/-! ## C35: registering -/

section
variable {α κ : Type _} [DecidableEq α]

theorem mem_dictSet {d : List (α × κ)} {key : α} {value : κ} {e : α × κ} :
    e ∈ dictSet d key value ↔ e = (key, value) ∨ (e ∈ d ∧ e.1 ≠ key) := by
  unfold dictSet
  by_cases h : (d.any fun e => decide (e.1 = key)) = true
  · rw [if_pos h, List.mem_map]
    obtain ⟨f, hf, hk⟩ := List.any_eq_true.1 h
    have hk' : f.1 = key := by simpa using hk
    constructor
    · rintro ⟨g, hg, rfl⟩
      by_cases hgk : g.1 = key
      · rw [if_pos hgk]; exact Or.inl rfl
      · rw [if_neg hgk]; exact Or.inr ⟨hg, hgk⟩
    · rintro (rfl | ⟨he, hek⟩)
      · exact ⟨f, hf, by rw [if_pos hk']⟩
      · exact ⟨e, he, by rw [if_neg hek]⟩
  · rw [if_neg h, List.mem_append, List.mem_singleton]
    have hn : ∀ e ∈ d, e.1 ≠ key := by
      intro e he hk
      exact h (List.any_eq_true.2 ⟨e, he, by simpa using hk⟩)
    constructor
    · rintro (he | rfl)
      · exact Or.inr ⟨he, hn e he⟩
      · exact Or.inl rfl
    · rintro (rfl | ⟨he, _⟩)
      · exact Or.inr rfl
      · exact Or.inl he

/-- **C35** (registering) `add_converter` adds the converter to what the class had (its own or inherited
converters), replacing only one with the same target; a class with its own converters is not affected
by registrations with other classes. -/
theorem C35_register (env : ClassEnv α κ) (cls target : α) (k : κ)
    (hmro : ∀ c, (env.mro c).head? = some c) (d : α) (k' : κ) :
    ((d, k') ∈ (addConverter env cls target k).convs cls ↔
      (d = target ∧ k' = k) ∨ (d ≠ target ∧ (d, k') ∈ env.convs cls)) ∧
    ∀ c, c ≠ cls → env.own c ≠ none → (addConverter env cls target k).convs c = env.convs c := by
  constructor
  · have : (addConverter env cls target k).convs cls = dictSet (env.convs cls) target k := by
      obtain ⟨l, hl⟩ : ∃ l, env.mro cls = cls :: l := by
        have := hmro cls
        cases h : env.mro cls with
        | nil => rw [h] at this; cases this
        | cons a l => rw [h] at this; injection this with this; subst this; exact ⟨l, rfl⟩
      conv_lhs => unfold ClassEnv.convs addConverter
      simp only [hl, List.findSome?_cons, if_pos]
      rfl
    rw [this, mem_dictSet]
    simp only [Prod.mk.injEq, ne_eq]
    constructor
    · rintro (h | h)
      · exact Or.inl h
      · exact Or.inr ⟨h.2, h.1⟩
    · rintro (h | h)
      · exact Or.inl h
      · exact Or.inr ⟨h.2, h.1⟩
  · intro c hc ho
    obtain ⟨l, hl⟩ : ∃ l, env.mro c = c :: l := by
      have := hmro c
      cases h : env.mro c with
      | nil => rw [h] at this; cases this
      | cons a l => rw [h] at this; injection this with this; subst this; exact ⟨l, rfl⟩
    obtain ⟨t, ht⟩ := Option.ne_none_iff_exists'.1 ho
    unfold ClassEnv.convs addConverter
    simp only [hl, List.findSome?_cons, if_neg hc, ht]

end

example : (addConverter demoClasses 2 4 "x").convs 2 = [(3, "gaussian->gamma"), (4, "x")] ∧
    (addConverter demoClasses 2 3 "y").convs 2 = [(3, "y")] ∧
    (addConverter demoClasses0 7 2 "z").convs 6 = [] := by decide +kernel

end Verif
