import Verif.Props.Engine

/-!
# C38, C39: checkpoints
-/

namespace Verif
open Spec

set_option linter.unusedSectionVars false

section
variable {ν V O M F : Type _} [DecidableEq ν] [DecidableEq O] [FloatOps F]

/-! ### Writing -/

theorem runSteps_append (a b : List (H5Step V O F)) (f : H5 V O F) :
    runSteps (a ++ b) f = match runSteps a f with
      | (.ok _, f') => runSteps b f'
      | (.error e, f') => (.error e, f') := by
  induction a generalizing f with
  | nil => rfl
  | cons st a ih =>
    simp only [List.cons_append, runSteps]
    cases hst : st f with
    | error e => rfl
    | ok f' => exact ih f'

/-- Nodes that can be saved together: non-empty, different names. -/
def NamesOk (env : VBEnv ν V O M F) (ns : List ν) : Prop :=
  (∀ n ∈ ns, env.name n ≠ "") ∧ (ns.map env.name).Nodup

theorem NamesOk.cons {env : VBEnv ν V O M F} {n : ν} {ns : List ν} (h : NamesOk env (n :: ns)) :
    env.name n ≠ "" ∧ env.name n ∉ ns.map env.name ∧ NamesOk env ns := by
  refine ⟨h.1 n (by simp), ?_, fun m hm => h.1 m (by simp [hm]), ?_⟩
  · have := h.2; rw [List.map_cons, List.nodup_cons] at this; exact this.1
  · have := h.2; rw [List.map_cons, List.nodup_cons] at this; exact this.2

theorem runSteps_nodes (env : VBEnv ν V O M F) (s : VBState ν V O M F) (ns : List ν)
    (f : H5 V O F) (g : List (String × NodeRec V O)) (hf : f.nodes = some g)
    (hn : NamesOk env ns) (hg : ∀ n ∈ ns, env.name n ∉ g.map (·.1)) :
    runSteps (ns.map (saveNodeStep env s)) f = (.ok (), { f with
      nodes := some (g ++ (ns.filter env.savable).map
        fun n => (env.name n, ⟨(s.world n).data, (s.world n).observed⟩)) }) := by
  induction ns generalizing f g with
  | nil => simp only [List.map_nil, runSteps, List.filter_nil, List.append_nil, ← hf]; rfl
  | cons n ns ih =>
    obtain ⟨h1, h2, h3⟩ := hn.cons
    simp only [List.map_cons, runSteps, saveNodeStep, if_neg h1]
    by_cases hs : env.savable n = true
    · have hc : (((f.nodes.getD []).map (·.1)).contains (env.name n)) = false := by
        rw [hf]
        have := hg n (by simp)
        simpa using this
      simp only [hs, if_true, hc, Bool.false_eq_true, if_false]
      rw [ih _ _ rfl h3]
      · simp [hs, hf]
      · intro m hm
        rw [hf]
        simp only [Option.getD_some, List.map_append, List.map_cons, List.map_nil, List.mem_append,
          List.mem_singleton, not_or]
        refine ⟨hg m (by simp [hm]), ?_⟩
        intro e
        exact h2 (by rw [← e]; exact List.mem_map_of_mem hm)
    · simp only [hs, Bool.false_eq_true, if_false]
      rw [ih _ _ hf h3 (fun m hm => hg m (by simp [hm]))]
      simp [hs]

theorem runSteps_bounds (env : VBEnv ν V O M F) (s : VBState ν V O M F) (ns : List ν)
    (f : H5 V O F) (g : List (String × List F)) (hf : f.boundterms = some g)
    (hn : NamesOk env ns) (hg : ∀ n ∈ ns, env.name n ∉ g.map (·.1)) :
    runSteps (ns.map (saveBoundStep env s)) f = (.ok (), { f with
      boundterms := some (g ++ ns.map fun n => (env.name n, s.l n)) }) := by
  induction ns generalizing f g with
  | nil => simp only [List.map_nil, runSteps, List.append_nil, ← hf]; rfl
  | cons n ns ih =>
    obtain ⟨h1, h2, h3⟩ := hn.cons
    have hc : (((f.boundterms.getD []).map (·.1)).contains (env.name n)) = false := by
      rw [hf]
      have := hg n (by simp)
      simpa using this
    simp only [List.map_cons, runSteps, saveBoundStep, hc, Bool.false_eq_true, if_false]
    rw [ih _ _ rfl h3]
    · simp [hf]
    · intro m hm
      rw [hf]
      simp only [Option.getD_some, List.map_append, List.map_cons, List.map_nil, List.mem_append,
        List.mem_singleton, not_or]
      refine ⟨hg m (by simp [hm]), ?_⟩
      intro e
      exact h2 (by rw [← e]; exact List.mem_map_of_mem hm)

/-- The complete checkpoint of the nodes `ns`. -/
def checkpoint (env : VBEnv ν V O M F) (s : VBState ν V O M F) (ns : List ν) : H5 V O F :=
  { nodes := some ((ns.filter env.savable).map
      fun n => (env.name n, ⟨(s.world n).data, (s.world n).observed⟩))
    L := some s.L
    iter := some s.iter
    converged := some s.converged
    boundterms := some (ns.map fun n => (env.name n, s.l n)) }

theorem runSteps_save (env : VBEnv ν V O M F) (s : VBState ν V O M F) (ns : List ν)
    (hn : NamesOk env ns) : runSteps (saveSteps env s ns) {} = (.ok (), checkpoint env s ns) := by
  unfold saveSteps
  rw [runSteps_append, runSteps_append, runSteps_append]
  simp only [runSteps]
  simp only [show ∀ f : H5 V O F, (pure () : Py (H5 V O F) Unit) f = (.ok (), f) from fun _ => rfl]
  rw [runSteps_nodes env s ns _ [] rfl hn (by simp)]
  simp only []
  rw [runSteps_bounds env s ns _ [] rfl hn (by simp)]
  rfl

/-- The nodes meant by the arguments of `save`/`load`. -/
def keyNodes (env : VBEnv ν V O M F) (model : List ν) (keys : List (NodeKey ν)) :
    Except PyErr (List ν) :=
  if keys.length = 0 then .ok model else keys.mapM (vbGetitem env model)

theorem vbSave_ok (env : VBEnv ν V O M F) (s : VBState ν V O M F) (keys : List (NodeKey ν))
    (ns : List ν) (hk : keyNodes env s.model keys = .ok ns) (hn : NamesOk env ns) :
    vbSave env keys s = (.ok (), { s with file := some (checkpoint env s ns) }) := by
  unfold vbSave vbSaveCrash
  unfold keyNodes at hk
  simp only [hk]
  rw [runSteps_save env s ns hn]

/-! ### Reading -/

theorem find?_map_name {α : Type _} (env : VBEnv ν V O M F) (ns : List ν) (v : ν → α)
    (hn : (ns.map env.name).Nodup) (n : ν) (h : n ∈ ns) :
    (ns.map fun n => (env.name n, v n)).find? (fun p => decide (p.1 = env.name n))
      = some (env.name n, v n) := by
  induction ns with
  | nil => simp at h
  | cons a ns ih =>
    rw [List.map_cons, List.nodup_cons] at hn
    rw [List.map_cons, List.find?_cons]
    by_cases ha : env.name a = env.name n
    · have : n = a := by
        rcases List.mem_cons.1 h with h | h
        · exact h
        · exact absurd (by rw [ha]; exact List.mem_map_of_mem h) hn.1
      subst this
      simp
    · simp only [ha, decide_false]
      exact ih hn.2 (by
        rcases List.mem_cons.1 h with h | h
        · subst h; exact absurd rfl ha
        · exact h)

theorem h5Item_nodes (env : VBEnv ν V O M F) (s : VBState ν V O M F) (ns : List ν)
    (hn : NamesOk env ns) (n : ν) (h : n ∈ ns) (hs : env.savable n = true) :
    h5Item (checkpoint env s ns).nodes (env.name n)
      = .ok ⟨(s.world n).data, (s.world n).observed⟩ := by
  unfold h5Item checkpoint
  simp only []
  rw [find?_map_name env (ns.filter env.savable)
    (fun n => (⟨(s.world n).data, (s.world n).observed⟩ : NodeRec V O))
    (hn.2.sublist (List.filter_sublist.map _)) n (by simp [h, hs])]

theorem h5Item_bounds (env : VBEnv ν V O M F) (s : VBState ν V O M F) (ns : List ν)
    (hn : NamesOk env ns) (n : ν) (h : n ∈ ns) :
    h5Item (checkpoint env s ns).boundterms (env.name n) = .ok (s.l n) := by
  unfold h5Item checkpoint
  simp only []
  rw [find?_map_name env ns (fun n => s.l n) hn.2 n h]

/-- All masks agree with what is observed. -/
def MasksOk (env : VBEnv ν V O M F) (w : ν → NodeState V O M F) : Prop :=
  ∀ n, (w n).mask = env.maskOf (fun k => (w k).observed) n

theorem loadNode_spec (env : VBEnv ν V O M F) (n : ν) (r : NodeRec V O)
    (w : ν → NodeState V O M F) (hm : MasksOk env w) :
    MasksOk env (loadNode env n r w) ∧
    ((loadNode env n r w n).data = r.data ∧ (loadNode env n r w n).observed = r.observed) ∧
    (∀ m, m ≠ n → (loadNode env n r w m).data = (w m).data ∧
      (loadNode env n r w m).observed = (w m).observed) ∧
    ∀ m, (loadNode env n r w m).annealing = (w m).annealing := by
  have hupd : ∀ m, (Function.update w n { w n with data := r.data, observed := r.observed } m).annealing
      = (w m).annealing := by
    intro m
    by_cases h : m = n
    · subst h; simp
    · simp [Function.update_of_ne h]
  unfold loadNode
  simp only []
  by_cases ho : (w n).observed ≠ r.observed
  · rw [if_pos ho]
    refine ⟨fun m => rfl, by simp, fun m h => by simp [Function.update_of_ne h], hupd⟩
  · rw [if_neg ho]
    have ho' : r.observed = (w n).observed := by
      by_contra h; exact ho fun e => h e.symm
    refine ⟨?_, by simp, fun m h => by simp [Function.update_of_ne h], hupd⟩
    have hobs : (fun k => (Function.update w n
        { w n with data := r.data, observed := r.observed } k).observed) = fun k => (w k).observed := by
      funext k
      by_cases h : k = n
      · subst h; simp [ho']
      · simp [Function.update_of_ne h]
    intro m
    rw [hobs, ← hm m]
    by_cases h : m = n
    · subst h; simp
    · simp [Function.update_of_ne h]

theorem loadNodesLoop_ok (env : VBEnv ν V O M F) (s t : VBState ν V O M F) (all ns : List ν)
    (hall : NamesOk env all) (hsub : ∀ n ∈ ns, n ∈ all) (hm : MasksOk env t.world) :
    ∃ w, loadNodesLoop env (checkpoint env s all) ns t = (.ok (), { t with world := w }) ∧
      MasksOk env w ∧
      (∀ n, (n ∈ ns ∧ env.savable n = true → (w n).data = (s.world n).data ∧
          (w n).observed = (s.world n).observed) ∧
        (¬ (n ∈ ns ∧ env.savable n = true) → (w n).data = (t.world n).data ∧
          (w n).observed = (t.world n).observed)) ∧
      ∀ n, (w n).annealing = (t.world n).annealing := by
  induction ns generalizing t with
  | nil => exact ⟨t.world, rfl, hm, fun n => ⟨by simp, by simp⟩, fun _ => rfl⟩
  | cons n ns ih =>
    have hn := hsub n (by simp)
    unfold loadNodesLoop
    rw [if_neg (hall.1 n hn)]
    by_cases hs : env.savable n = true
    · obtain ⟨h1, h2, h3, h4⟩ := loadNode_spec env n
        ⟨(s.world n).data, (s.world n).observed⟩ t.world hm
      obtain ⟨w, hw, hmw, hd, ha⟩ := ih { t with world := (loadNode env n
        ⟨(s.world n).data, (s.world n).observed⟩ t.world) } (fun m hm => hsub m (by simp [hm])) h1
      refine ⟨w, ?_, hmw, ?_, fun m => by rw [ha m, h4 m]⟩
      · rw [if_pos hs, h5Item_nodes env s all hall n hn hs]
        exact hw
      · intro m
        by_cases hin : m ∈ ns ∧ env.savable m = true
        · refine ⟨fun _ => (hd m).1 hin, fun h => absurd ⟨by simp [hin.1], hin.2⟩ h⟩
        · have hdm := (hd m).2 hin
          simp only at hdm
          by_cases hmn : m = n
          · subst hmn
            refine ⟨fun _ => ?_, fun h => absurd ⟨by simp, hs⟩ h⟩
            rw [hdm.1, hdm.2]; exact h2
          · refine ⟨fun h => absurd ⟨(List.mem_cons.1 h.1).resolve_left hmn, h.2⟩ hin, fun _ => ?_⟩
            rw [hdm.1, hdm.2]; exact h3 m hmn
    · obtain ⟨w, hw, hmw, hd, ha⟩ := ih t (fun m hm => hsub m (by simp [hm])) hm
      refine ⟨w, ?_, hmw, ?_, ha⟩
      · rw [if_neg hs]
        exact hw
      · intro m
        constructor
        · rintro ⟨h1, h2⟩
          apply (hd m).1
          refine ⟨(List.mem_cons.1 h1).resolve_left ?_, h2⟩
          rintro rfl; exact hs h2
        · intro h
          apply (hd m).2
          rintro ⟨h1, h2⟩
          exact h ⟨by simp [h1], h2⟩

theorem loadBoundsLoop_ok (env : VBEnv ν V O M F) (s t : VBState ν V O M F) (all ns : List ν)
    (hall : NamesOk env all) (hsub : ∀ n ∈ ns, n ∈ all) :
    loadBoundsLoop env (checkpoint env s all) ns t
      = (.ok (), { t with l := fun n => if n ∈ ns then s.l n else t.l n }) := by
  induction ns generalizing t with
  | nil => simp only [List.not_mem_nil, if_false]; rfl
  | cons n ns ih =>
    unfold loadBoundsLoop
    rw [Py.bind_lift_ok (h5Item_bounds env s all hall n (hsub n (by simp))), Py.bind_modify,
      ih _ (fun m hm => hsub m (by simp [hm]))]
    congr 2
    funext m
    by_cases hm : m ∈ ns
    · simp [hm]
    · by_cases hmn : m = n
      · subst hmn; simp [hm]
      · simp [hm, hmn]

/-- C38.  Save the nodes named by `keys` in state `s`, load them in state `t` of an engine with the
same nodes: moments, parameters and observation masks of these nodes, the iteration count and the
histories are those of `s`, other nodes keep their data, and all masks agree with the observations.
(The annealing coefficients are not restored, see `C38_annealing_counterexample`.) -/
theorem C38_save_load_nodes (env : VBEnv ν V O M F) (s t : VBState ν V O M F)
    (keys : List (NodeKey ν)) (ns : List ν) (hk : keyNodes env s.model keys = .ok ns)
    (hmodel : t.model = s.model) (hn : NamesOk env ns) (hm : MasksOk env t.world)
    (hfile : t.file = (vbSave env keys s).2.file) :
    (vbSave env keys s).1 = .ok () ∧
    ∃ t', vbLoad env keys t = (.ok (), t') ∧
      t'.L = s.L ∧ t'.iter = s.iter ∧ t'.converged = s.converged ∧
      (∀ n ∈ ns, t'.l n = s.l n) ∧ (∀ n, n ∉ ns → t'.l n = t.l n) ∧
      (∀ n ∈ ns, env.savable n = true → (t'.world n).data = (s.world n).data ∧
        (t'.world n).observed = (s.world n).observed) ∧
      (∀ n, ¬ (n ∈ ns ∧ env.savable n = true) → (t'.world n).data = (t.world n).data ∧
        (t'.world n).observed = (t.world n).observed) ∧
      (∀ n, (t'.world n).annealing = (t.world n).annealing) ∧ MasksOk env t'.world ∧
      t' = { t with world := t'.world, L := t'.L, iter := t'.iter, converged := t'.converged,
                    l := t'.l } := by
  have hsave := vbSave_ok env s keys ns hk hn
  rw [hsave] at hfile ⊢
  refine ⟨rfl, ?_⟩
  obtain ⟨w, hw, hmw, hd, ha⟩ := loadNodesLoop_ok env s t ns ns hn (fun _ h => h) hm
  have hload : vbLoad env keys t = (.ok (), { t with
      world := w, L := s.L, iter := s.iter, converged := s.converged
      l := fun n => if n ∈ ns then s.l n else t.l n }) := by
    unfold vbLoad
    rw [Py.bind_get]
    have hf : t.file = some (checkpoint env s ns) := hfile
    have hk' : (if keys.length = 0 then Except.ok t.model else keys.mapM (vbGetitem env t.model))
        = .ok ns := by rw [hmodel]; exact hk
    rw [hf]
    show (Py.lift _ >>= _) t = _
    rw [Py.bind_lift_ok hk', Py.bind_ok hw]
    have e1 : h5Data (checkpoint env s ns).L = .ok s.L := rfl
    have e2 : h5Data (checkpoint env s ns).iter = .ok s.iter := rfl
    have e3 : h5Data (checkpoint env s ns).converged = .ok s.converged := rfl
    rw [Py.bind_lift_ok e1, Py.bind_modify, Py.bind_lift_ok e2,
      Py.bind_modify, Py.bind_lift_ok e3, Py.bind_modify,
      loadBoundsLoop_ok env s _ ns ns hn (fun _ h => h)]
    simp only [hf]
  refine ⟨_, hload, rfl, rfl, rfl, fun n h => by simp [h], fun n h => by simp [h],
    fun n h hs => (hd n).1 ⟨h, hs⟩, fun n h => (hd n).2 h, ha, hmw, rfl⟩

/-- C38.  Loading a checkpoint of the whole model into an equally constructed engine restores the
state, so that every continuation is the same.  `t` is equally constructed: it has the same nodes and
settings, including annealing, which is not saved; only moments, parameters, observations and
histories may differ. -/
theorem C38_round_trip (env : VBEnv ν V O M F) (s t : VBState ν V O M F)
    (hn : NamesOk env s.model) (hms : MasksOk env s.world) (hmt : MasksOk env t.world)
    (hsettings : t = { s with world := t.world, L := t.L, iter := t.iter, converged := t.converged,
                              l := t.l, file := t.file })
    (hann : ∀ n, (t.world n).annealing = (s.world n).annealing)
    (hother : ∀ n, ¬ (n ∈ s.model ∧ env.savable n = true) →
      (t.world n).data = (s.world n).data ∧ (t.world n).observed = (s.world n).observed)
    (hl : ∀ n, n ∉ s.model → t.l n = s.l n)
    (hfile : t.file = (vbSave env [] s).2.file) :
    (vbSave env [] s).1 = .ok () ∧ vbLoad env [] t = (.ok (), (vbSave env [] s).2) ∧
    ∀ ops, runHistory env (vbLoad env [] t).2 ops = runHistory env (vbSave env [] s).2 ops := by
  have hmodel : t.model = s.model := by rw [hsettings]
  obtain ⟨h1, t', ht', hL, hi, hc, hl1, hl2, hd, hd', ha, hm, hrest⟩ :=
    C38_save_load_nodes env s t [] s.model rfl hmodel hn hmt hfile
  have hw : t'.world = s.world := by
    have hobs : ∀ n, (t'.world n).data = (s.world n).data ∧
        (t'.world n).observed = (s.world n).observed := by
      intro n
      by_cases h : n ∈ s.model ∧ env.savable n = true
      · exact hd n h.1 h.2
      · rw [(hd' n h).1, (hd' n h).2]; exact hother n h
    funext n
    have hmask : (t'.world n).mask = (s.world n).mask := by
      rw [hm n, hms n]; congr 1; funext k; exact (hobs k).2
    have hann' : (t'.world n).annealing = (s.world n).annealing := by rw [ha n, hann n]
    rcases hx : t'.world n with ⟨d, o, m, a⟩
    rcases hy : s.world n with ⟨d', o', m', a'⟩
    have := hobs n
    rw [hx, hy] at this hmask hann'
    simp only at this hmask hann'
    obtain ⟨rfl, rfl⟩ := this
    subst hmask; subst hann'
    rfl
  have hlall : t'.l = s.l := by
    funext n
    by_cases h : n ∈ s.model
    · exact hl1 n h
    · rw [hl2 n h, hl n h]
  have hfin : t' = (vbSave env [] s).2 := by
    have hsave := vbSave_ok env s [] s.model rfl hn
    rw [hrest, hsettings, hw, hL, hi, hc, hlall, hfile, hsave]
  refine ⟨h1, by rw [ht', hfin], fun ops => by rw [ht', hfin]⟩

/-! ### C39 -/

/-- C39, partial: a `save` that raises because a node cannot be found has not touched the file.
(Missing: all failures after the file has been opened, see `C39_crash_refuted`.) -/
theorem C39_unknown_node_partial (env : VBEnv ν V O M F) (s : VBState ν V O M F)
    (keys : List (NodeKey ν)) (e : PyErr) (hk : keyNodes env s.model keys = .error e) :
    vbSave env keys s = (.error e, s) := by
  unfold vbSave vbSaveCrash
  unfold keyNodes at hk
  simp only [hk]

/-- Writing never changes the bound term of a node by itself: a step either writes bound terms or
leaves them. -/
theorem saveSteps_ne_nil (env : VBEnv ν V O M F) (s : VBState ν V O M F) (ns : List ν) :
    saveSteps env s ns ≠ [] := by simp [saveSteps]

/-- Names of the stored bound terms. -/
def boundNames (f : H5 V O F) : List String := (f.boundterms.getD []).map (·.1)

theorem runSteps_boundNames_nodes (env : VBEnv ν V O M F) (s : VBState ν V O M F) (ns : List ν)
    (f : H5 V O F) :
    (runSteps (ns.map (saveNodeStep env s)) f).2.boundterms = f.boundterms := by
  induction ns generalizing f with
  | nil => rfl
  | cons n ns ih =>
    simp only [List.map_cons, runSteps]
    cases h : saveNodeStep env s n f with
    | error e => rfl
    | ok f' =>
      rw [ih f']
      unfold saveNodeStep at h
      split at h
      · cases h
      · split at h
        · simp only [] at h
          split at h
          · cases h
          · injection h with h; subst h; rfl
        · injection h with h; subst h; rfl

theorem runSteps_boundNames_bounds (env : VBEnv ν V O M F) (s : VBState ν V O M F) (ns : List ν)
    (f : H5 V O F) :
    ∀ x ∈ boundNames (runSteps (ns.map (saveBoundStep env s)) f).2,
      x ∈ boundNames f ∨ x ∈ ns.map env.name := by
  induction ns generalizing f with
  | nil => intro x hx; exact Or.inl hx
  | cons n ns ih =>
    intro x hx
    simp only [List.map_cons, runSteps] at hx
    cases h : saveBoundStep env s n f with
    | error e => rw [h] at hx; exact Or.inl hx
    | ok f' =>
      rw [h] at hx
      rcases ih f' x hx with hx | hx
      · unfold saveBoundStep at h
        simp only [] at h
        split at h
        · cases h
        · injection h with h
          subst h
          unfold boundNames at hx ⊢
          simp only [Option.getD_some, List.map_append, List.map_cons, List.map_nil, List.mem_append,
            List.mem_singleton] at hx
          rcases hx with hx | hx
          · exact Or.inl hx
          · exact Or.inr (by simp [hx])
      · exact Or.inr (by simp only [List.map_cons, List.mem_cons]; exact Or.inr hx)

theorem loadBoundsLoop_needs (env : VBEnv ν V O M F) (f : H5 V O F) (ns : List ν)
    (t t' : VBState ν V O M F) (h : loadBoundsLoop env f ns t = (.ok (), t')) :
    ∀ n ∈ ns, env.name n ∈ boundNames f := by
  induction ns generalizing t with
  | nil => simp
  | cons n ns ih =>
    unfold loadBoundsLoop at h
    cases hi : h5Item f.boundterms (env.name n) with
    | error e => rw [hi, Py.bind_lift_error rfl] at h; cases h
    | ok a =>
      rw [hi, Py.bind_lift_ok rfl, Py.bind_modify] at h
      intro m hm
      rcases List.mem_cons.1 hm with rfl | hm
      · unfold h5Item at hi
        unfold boundNames
        cases hb : f.boundterms with
        | none => rw [hb] at hi; cases hi
        | some g =>
          rw [hb] at hi
          simp only [] at hi
          cases hfind : g.find? (fun p => decide (p.1 = env.name m)) with
          | none => rw [hfind] at hi; cases hi
          | some p =>
            have h1 := List.mem_of_find?_eq_some hfind
            have h2 := List.find?_some hfind
            simp only [decide_eq_true_eq] at h2
            rw [← h2]
            exact List.mem_map_of_mem h1
      · exact ih _ h m hm

theorem vbLoad_needs (env : VBEnv ν V O M F) (f : H5 V O F) (t t' : VBState ν V O M F)
    (hf : t.file = some f) (h : vbLoad env [] t = (.ok (), t')) :
    ∀ n ∈ t.model, env.name n ∈ boundNames f := by
  unfold vbLoad at h
  rw [Py.bind_get, hf] at h
  change (Py.lift (Except.ok t.model) >>= _) t = _ at h
  rw [Py.bind_lift_ok rfl] at h
  rcases h1 : loadNodesLoop env f t.model t with ⟨e | _, t1⟩
  · rw [Py.bind_error h1] at h; cases h
  · rw [Py.bind_ok h1] at h
    cases hL : h5Data f.L with
    | error e => rw [hL, Py.bind_lift_error rfl] at h; cases h
    | ok L =>
      rw [hL, Py.bind_lift_ok rfl, Py.bind_modify] at h
      cases hI : h5Data f.iter with
      | error e => rw [hI, Py.bind_lift_error rfl] at h; cases h
      | ok it =>
        rw [hI, Py.bind_lift_ok rfl, Py.bind_modify] at h
        cases hC : h5Data f.converged with
        | error e => rw [hC, Py.bind_lift_error rfl] at h; cases h
        | ok c =>
          rw [hC, Py.bind_lift_ok rfl, Py.bind_modify] at h
          exact loadBoundsLoop_needs env f t.model _ _ h

/-- C39, refuted for every crash point: if the process dies during a save of the whole model before
the last write, then the file cannot be loaded, whatever it contained before. -/
theorem C39_crash_refuted (env : VBEnv ν V O M F) (s t : VBState ν V O M F)
    (hmodel : s.model ≠ []) (hn : NamesOk env s.model) (k : Nat)
    (hk : k < (saveSteps env s s.model).length) (ht : t.model = s.model)
    (hfile : t.file = (vbSaveCrash env (some k) [] s).2.file) (t' : VBState ν V O M F) :
    vbLoad env [] t ≠ (.ok (), t') := by
  intro hload
  obtain ⟨ms, m, hms⟩ : ∃ ms m, s.model = ms ++ [m] :=
    ⟨s.model.dropLast, s.model.getLast hmodel, (List.dropLast_append_getLast hmodel).symm⟩
  have hf : t.file = some (runSteps ((saveSteps env s s.model).take k) {}).2 := hfile
  have hneed := vbLoad_needs env _ t t' hf hload m (by rw [ht, hms]; simp)
  have hnm : env.name m ∉ ms.map env.name := by
    have := hn.2
    rw [hms, List.map_append, List.nodup_append] at this
    intro h
    exact this.2.2 _ h _ (by simp) rfl
  -- the last step is not among the first `k`
  have hsplit : saveSteps env s s.model
      = (([fun f => .ok { f with nodes := some [] }] ++ s.model.map (saveNodeStep env s)
        ++ [fun f => .ok { f with L := some s.L }, fun f => .ok { f with iter := some s.iter },
            fun f => .ok { f with converged := some s.converged },
            fun f => .ok { f with boundterms := some [] }])
        ++ ms.map (saveBoundStep env s)) ++ [saveBoundStep env s m] := by
    unfold saveSteps
    have : s.model.map (saveBoundStep env s)
        = ms.map (saveBoundStep env s) ++ [saveBoundStep env s m] := by rw [hms]; simp
    rw [this, ← List.append_assoc]
  -- invariant: every name of a bound term is a name of `ms`
  have key : ∀ (steps : List (H5Step V O F)),
      (∀ st ∈ steps, ∀ f f', st f = .ok f' → (∀ x ∈ boundNames f, x ∈ ms.map env.name) →
        ∀ x ∈ boundNames f', x ∈ ms.map env.name) →
      ∀ f, (∀ x ∈ boundNames f, x ∈ ms.map env.name) →
        ∀ x ∈ boundNames (runSteps steps f).2, x ∈ ms.map env.name := by
    intro steps
    induction steps with
    | nil => intro _ f hf; exact hf
    | cons st steps ih =>
      intro hst f hf
      simp only [runSteps]
      cases h : st f with
      | error e => exact hf
      | ok f' =>
        exact ih (fun st' h' => hst st' (by simp [h'])) f' (hst st (by simp) f f' h hf)
  apply hnm
  refine key _ ?_ {} (by simp [boundNames]) _ hneed
  intro st hst f f' hok hinv
  rw [hsplit] at hst hk
  rw [List.take_append_of_le_length (by simp at hk ⊢; omega)] at hst
  have hst := List.mem_of_mem_take hst
  simp only [List.mem_append, List.mem_cons, List.not_mem_nil, or_false, List.mem_map] at hst
  rcases hst with ((rfl | ⟨n, _, rfl⟩) | (rfl | rfl | rfl | rfl)) | ⟨n, hnms, rfl⟩
  · injection hok with hok; subst hok; exact hinv
  · have := runSteps_boundNames_nodes env s [n] f
    simp only [List.map_cons, List.map_nil, runSteps, hok] at this
    have hb : f'.boundterms = f.boundterms := this
    unfold boundNames at hinv ⊢
    rw [hb]; exact hinv
  · injection hok with hok; subst hok; exact hinv
  · injection hok with hok; subst hok; exact hinv
  · injection hok with hok; subst hok; exact hinv
  · injection hok with hok; subst hok; simp [boundNames]
  · have := runSteps_boundNames_bounds env s [n] f
    simp only [List.map_cons, List.map_nil, runSteps, hok] at this
    intro x hx
    rcases this x hx with h | h
    · exact hinv x h
    · simp only [List.mem_singleton] at h
      rw [h]; exact List.mem_map_of_mem hnms

end

/-! ### Concrete instances and counterexamples -/

/-- After two iterations the example engine is saved and loaded into a new one. -/
example :
    let s := (@vbUpdate _ _ _ _ _ _ intOps (exEnv exName) [] 2 (some (-1)) exState).2
    let s1 := (vbSave (exEnv exName) [] s).2
    let t := (vbLoad (exEnv exName) [] { exState with file := s1.file }).2
    t.iter = 2 ∧ t.L.take 2 = [-16, -12] ∧ (t.world 0).data = 8 ∧ (t.world 1).data = 2 := by
  decide +kernel

theorem exNamesOk : NamesOk (exEnv exName) exState.model := by
  constructor <;> decide

example : MasksOk (exEnv exName) exState.world := fun _ => rfl

/-- A crash in the middle of saving, for an engine that meets the hypotheses. -/
example (t') : vbLoad (exEnv exName) [] { exState with
    file := (vbSaveCrash (exEnv exName) (some 5) [] exState).2.file } ≠ (.ok (), t') :=
  letI := intOps
  C39_crash_refuted (exEnv exName) exState { exState with
    file := (vbSaveCrash (exEnv exName) (some 5) [] exState).2.file }
    (by decide) exNamesOk 5 (by decide) rfl rfl t'

/-- C38, refuted: the annealing coefficient is not saved. -/
theorem C38_annealing_counterexample :
    let env := exEnv exName
    let s := (setAnnealing (2 : Int) exState).2
    let saved := vbSave env [] s
    let loaded := vbLoad env [] { exState with file := saved.2.file }
    saved.1 = .ok () ∧ loaded.1 = .ok () ∧ (s.world 0).annealing = 2 ∧
      (loaded.2.world 0).annealing = 1 := by
  decide +kernel

/-- C38, refuted for automatic saves: the checkpoint is written before the iteration counter is
increased, so that loading it loses count of the iteration, and the next iteration overwrites its
entry in the history. -/
theorem C38_autosave_counterexample :
    let env := exEnv exName
    let s := (@vbUpdate _ _ _ _ _ _ intOps env [] 2 (some (-1)) { exState with autosaveIterations := 2 }).2
    let loaded := vbLoad env [] { exState with file := s.file }
    s.iter = 2 ∧ s.L.take 2 = [-16, -12] ∧ loaded.1 = .ok () ∧ loaded.2.iter = 1 ∧
      (loaded.2.world 0).data = (s.world 0).data ∧
      let s3 := (@vbUpdate _ _ _ _ _ _ intOps env [] 1 (some (-1)) s).2
      let l3 := (@vbUpdate _ _ _ _ _ _ intOps env [] 1 (some (-1)) loaded.2).2
      s3.iter = 3 ∧ s3.L.take 3 = [-16, -12, -10] ∧ l3.iter = 2 ∧ l3.L.take 2 = [-16, -10] := by
  decide +kernel

/-- C38, refuted for subsets of nodes: after loading only one node into a new engine the next update
raises `IndexError`, because the other nodes' histories have no room. -/
theorem C38_subset_counterexample :
    let env := exEnv exName
    let s := (@vbUpdate _ _ _ _ _ _ intOps env [] 1 (some (-1)) exState).2
    let saved := vbSave env [] s
    let loaded := vbLoad env [.node 0] { exState with file := saved.2.file }
    saved.1 = .ok () ∧ loaded.1 = .ok () ∧
      (@vbUpdate _ _ _ _ _ _ intOps env [] 1 (some (-1)) loaded.2).1 = .error .indexError := by
  decide +kernel

/-- C39, refuted: saving raises (a node without a name), and the previous checkpoint is gone. -/
theorem C39_failing_save_counterexample :
    let good := (vbSave (exEnv exName) [] exState).2
    let bad := exEnv fun n => if n = 2 then "" else exName n
    (vbLoad (exEnv exName) [] good).1 = .ok () ∧
      (vbSave bad [] good).1 = .error .exception ∧
      (vbLoad (exEnv exName) [] (vbSave bad [] good).2).1 = .error .exception := by
  decide +kernel

end Verif
