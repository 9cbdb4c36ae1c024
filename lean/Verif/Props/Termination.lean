import Mathlib.Topology.Order.MonotoneConvergence
import Mathlib.Topology.Algebra.Order.Field
import Verif.Model.EngineNet
import Verif.Props.Engine
import Verif.Props.EvidenceModels
import Verif.Lemmas.WishartIntegral

/-!
# C91: `VB.update(repeat=None)` ends
-/

namespace Verif
open Spec Filter Topology

section
variable {ν V O M F : Type _} [DecidableEq ν] [FloatOps F]

theorem updateLoop_add (env : VBEnv ν V O M F) (keys : List (NodeKey ν)) (tol : Option F) (n m : Nat)
    (s t : VBState ν V O M F) (h : updateLoop env keys tol n s = (.ok false, t)) :
    updateLoop env keys tol (n + m) s = updateLoop env keys tol m t := by
  induction n generalizing s with
  | zero =>
    injection h with h1 h2
    subst h2
    rw [Nat.zero_add]
  | succ n ih =>
    rw [show n + 1 + m = (n + m) + 1 by omega]
    unfold updateLoop at h ⊢
    rcases hi : updateIteration env keys tol s with ⟨_ | c, s1⟩
    · rw [Py.bind_error hi] at h; cases h
    · rw [Py.bind_ok hi] at h
      rw [Py.bind_ok hi]
      cases c with
      | true => rw [if_pos rfl] at h; injection h with h1 h2; injection h1 with h1; cases h1
      | false =>
        rw [if_neg (by simp)] at h
        rw [if_neg (by simp)]
        cases m with
        | zero => exact ih s1 h
        | succ m => exact ih s1 h

end

section
variable {ν V O M : Type _} [DecidableEq ν]

/-- The relative change of a sequence that converges to a number other than zero gets small. -/
theorem relative_change (b : ℕ → ℝ) (l t : ℝ) (hb : Tendsto b atTop (𝓝 l)) (hl : l ≠ 0) (ht : 0 < t) :
    ∀ᶠ n in atTop, 1 / 2 * (|b n| + |b (n + 1)|) ≠ 0 ∧ (b (n + 1) - b n) / (1 / 2 * (|b n| + |b (n + 1)|)) < t := by
  have hb1 : Tendsto (fun n => b (n + 1)) atTop (𝓝 l) := hb.comp (tendsto_add_atTop_nat 1)
  have hd : Tendsto (fun n => 1 / 2 * (|b n| + |b (n + 1)|)) atTop (𝓝 (1 / 2 * (|l| + |l|))) :=
    (hb.abs.add hb1.abs).const_mul _
  have hne : (1 / 2 * (|l| + |l|) : ℝ) ≠ 0 := by
    have := abs_pos.2 hl
    positivity
  have hq := (hb1.sub hb).div hd hne
  rw [sub_self, zero_div] at hq
  filter_upwards [hd.eventually_ne hne, hq.eventually_lt_const ht] with n h1 h2
  exact ⟨h1, h2⟩

/-- **C91** The loop of `update(repeat=None)` ends if the bound of the model does not decrease and has an upper bound: it returns
after some number of iterations, or it goes on for ever with bounds that tend to zero. -/
theorem C91_engine (env : VBEnv ν V O M (Option ℝ)) (keys : List (NodeKey ν)) (tol : Option (Option ℝ))
    (s : VBState ν V O M (Option ℝ)) (hr : VBReachable env s) (t : ℝ) (ht : 0 < t) (htol : tol.getD s.tol = some t)
    (hcheck : s.ignoreBoundChecks = false)
    (hrun : ∀ n, ∃ r s', updateLoop env keys tol n s = (.ok r, s'))
    (Inv : (ν → NodeState V O M (Option ℝ)) → Prop) (B : (ν → NodeState V O M (Option ℝ)) → ℝ) (U : ℝ)
    (hI : Inv s.world)
    (hstep : ∀ w v w', Inv w → UpdatedInOrder env s.model keys w v → env.callback v = (.ok (), w') → Inv w' ∧ B w ≤ B w')
    (hB : ∀ w (c : ν → Option ℝ), Inv w → (∀ n ∈ s.model, env.contribution n w = .ok (c n)) →
      s.model.foldl (fun t n => FloatOps.add t (c n)) FloatOps.zero = some (B w))
    (hU : ∀ w, Inv w → B w ≤ U) :
    (∃ n s', updateLoop env keys tol n s = (.ok true, s')) ∨
      ∃ st : ℕ → VBState ν V O M (Option ℝ), (∀ n, updateLoop env keys tol n s = (.ok false, st n)) ∧
        Tendsto (fun n => B (st n).world) atTop (𝓝 0) := by
  by_cases hend : ∃ n s', updateLoop env keys tol n s = (.ok true, s')
  · exact Or.inl hend
  refine Or.inr ?_
  have hf : ∀ n, ∃ s', updateLoop env keys tol n s = (.ok false, s') := by
    intro n
    obtain ⟨r, s', h⟩ := hrun n
    cases r with
    | true => exact absurd ⟨n, s', h⟩ hend
    | false => exact ⟨s', h⟩
  choose st hst using hf
  refine ⟨st, hst, ?_⟩
  have h0 : st 0 = s := by
    have := hst 0
    injection this with _ h2
    exact h2.symm
  have hone : ∀ n, updateLoop env keys tol 1 (st n) = (.ok false, st (n + 1)) := fun n => by
    rw [← updateLoop_add env keys tol n 1 s (st n) (hst n)]; exact hst (n + 1)
  have hwf : ∀ n, VBWf (st n) := fun n => (updateLoop_chain env keys tol n s (st n) hr.wf.1 false (hst n)).1
  have hit : ∀ n, Iteration env keys tol (st n) (st (n + 1)) ∧ (st (n + 1)).converged = false := by
    intro n
    obtain ⟨-, k, -, c, hc0, hck, hch, -, -, hff⟩ := updateLoop_chain env keys tol 1 (st n) _ (hwf n) false (hone n)
    obtain ⟨rfl, hconv⟩ := hff rfl
    have := hch 0 one_pos
    rw [hc0, hck] at this
    exact ⟨this, hconv one_pos⟩
  have hmodel : ∀ n, (st n).model = s.model := by
    intro n
    induction n with
    | zero => rw [h0]
    | succ n ih => rw [(hit n).1.model, ih]
  have hset : ∀ n, (st n).ignoreBoundChecks = false ∧ (st n).tol = s.tol := by
    intro n
    induction n with
    | zero => rw [h0]; exact ⟨hcheck, rfl⟩
    | succ n ih => exact ⟨(hit n).1.settings.1.trans ih.1, (hit n).1.settings.2.2.1.trans ih.2⟩
  have hInv : ∀ n, Inv (st n).world := by
    intro n
    induction n with
    | zero => rw [h0]; exact hI
    | succ n ih =>
      obtain ⟨v, hv, hcb⟩ := (hit n).1.updated
      rw [hmodel] at hv
      exact (hstep _ v _ ih hv hcb).1
  have hmono : Monotone fun n => B (st n).world := by
    refine monotone_nat_of_le_succ fun n => ?_
    obtain ⟨v, hv, hcb⟩ := (hit n).1.updated
    rw [hmodel] at hv
    exact (hstep _ v _ (hInv n) hv hcb).2
  have hlim := tendsto_atTop_ciSup hmono ⟨U, by rintro _ ⟨n, rfl⟩; exact hU _ (hInv n)⟩
  -- the bound of an iteration is the last entry of the history
  have hlast : ∀ n, (st (n + 1)).L.take ((st n).iter + 1) = (st n).L.take (st n).iter ++ [some (B (st (n + 1)).world)] := by
    intro n
    obtain ⟨c, hc, -, hL⟩ := (hit n).1.history
    rw [hmodel] at hc hL
    rw [hL, hB _ c (hInv (n + 1)) hc]
  have hlen : ∀ n, ((st n).L.take (st n).iter).length = (st n).iter := fun n => by
    rw [List.length_take, min_eq_left (hwf n).iter_le]
  have hnew : ∀ n, (st (n + 1)).L[(st n).iter]? = some (some (B (st (n + 1)).world)) := by
    intro n
    have e : (st (n + 1)).L[(st n).iter]? = ((st (n + 1)).L.take ((st n).iter + 1))[(st n).iter]? := by
      rw [List.getElem?_take_of_lt (Nat.lt_succ_self _)]
    rw [e, hlast, List.getElem?_append_right (by rw [hlen]), hlen]
    simp
  have hold : ∀ n, (st (n + 2)).L[(st (n + 1)).iter - 1]? = some (some (B (st (n + 1)).world)) := by
    intro n
    have hi := (hit n).1.iter
    have e : (st (n + 2)).L[(st (n + 1)).iter - 1]?
        = ((st (n + 2)).L.take ((st (n + 1)).iter + 1))[(st (n + 1)).iter - 1]? := by
      rw [List.getElem?_take_of_lt (by omega)]
    rw [e, hlast (n + 1), List.getElem?_append_left (by rw [hlen]; omega), List.getElem?_take_of_lt (by omega), hi,
      Nat.add_sub_cancel, hnew]
  by_contra hne
  have hl : (⨆ n, B (st n).world) ≠ 0 := fun e => hne (e ▸ hlim)
  obtain ⟨N, hN⟩ := eventually_atTop.1 (relative_change _ _ t hlim hl ht)
  obtain ⟨hd, hlt⟩ := hN (N + 1) (Nat.le_succ N)
  have hc := (hit (N + 1)).1.converged.2 ⟨(hset _).1, (hit N).1.settings.2.1, some (B (st (N + 1)).world),
    some (B (st (N + 2)).world), hnew (N + 1), by rw [(hit N).1.iter]; omega, hold N, by
      rw [(hset (N + 1)).2, htol]
      simp only [FloatOps.div, FloatOps.sub, FloatOps.mul, FloatOps.half, FloatOps.add, FloatOps.abs, FloatOps.lt,
        Option.map₂_some_some, Option.map_some]
      rw [if_neg hd]
      exact decide_eq_true hlt⟩
  rw [(hit (N + 1)).2] at hc
  exact Bool.noConfusion hc

end

/-! ### networks -/

section
variable (G : Net) (name : G.N → String)

theorem netDecode_update (n : G.N) (w : G.N → NodeState G.State Unit Unit (Option ℝ)) :
    netDecode G (Function.update w n { w n with data := G.update n (netDecode G w) }) = G.update n (netDecode G w) := by
  have key : ∀ m, m ≠ n → ((G.update n (netDecode G w)).phi m = (netDecode G w).phi m ∧
      (G.update n (netDecode G w)).u m = (netDecode G w).u m ∧ (G.update n (netDecode G w)).g m = (netDecode G w).g m) := by
    intro m hm
    refine ⟨?_, ?_, ?_⟩ <;> simp [Net.update, Net.setPhi, hm]
  have hf : (G.update n (netDecode G w)).f = (netDecode G w).f := rfl
  ext m : 2
  · by_cases hm : m = n
    · subst hm; simp [netDecode]
    · rw [(key m hm).1]; simp [netDecode, hm]
  · by_cases hm : m = n
    · subst hm; simp [netDecode]
    · rw [(key m hm).2.1]; simp [netDecode, hm]
  · by_cases hm : m = n
    · subst hm; simp [netDecode]
    · rw [(key m hm).2.2]; simp [netDecode, hm]
  · by_cases hm : m = n
    · subst hm; simp [netDecode]
    · rw [hf]; simp [netDecode, hm]

end

section
variable {ν V O M F : Type _} [DecidableEq ν] [FloatOps F]

/-- An iteration without auto-save does not raise if no node does. -/
theorem updateIteration_total (env : VBEnv ν V O M F) (hup : ∀ n w, ∃ w', env.update n w = (.ok (), w'))
    (hco : ∀ n w, ∃ v, env.contribution n w = .ok v) (hcb : ∀ w, ∃ w', env.callback w = (.ok (), w'))
    (ns : List ν) (tol : Option F) (s : VBState ν V O M F)
    (hwf : VBWf s) (hns : ∀ n ∈ ns, n ∈ s.model) (hauto : s.autosaveIterations = 0) :
    ∃ r s', updateIteration env (ns.map .node) tol s = (.ok r, s') := by
  have hu : ∀ (ns : List ν) (s : VBState ν V O M F), (∀ n ∈ ns, n ∈ s.model) →
      ∃ s', updateNodes env (ns.map .node) s = (.ok (), s') := by
    intro ns
    induction ns with
    | nil => exact fun s _ => ⟨s, rfl⟩
    | cons n ns ih =>
      intro s hns
      rw [List.map_cons]
      unfold updateNodes
      rw [Py.bind_get]
      have hg : vbGetitem env s.model (.node n) = .ok n := if_pos (hns n (by simp))
      rw [Py.bind_lift_ok hg]
      by_cases hu : env.hasUpdate n = true
      · obtain ⟨w1, hr⟩ := hup n s.world
        rw [Py.bind_ok (s' := { s with world := w1 }) (a := ()) (by unfold runUpdate; rw [if_pos hu, hr])]
        exact ih _ fun m hm => hns m (by simp [hm])
      · rw [Py.bind_ok (s' := s) (a := ()) (by unfold runUpdate; rw [if_neg hu])]
        exact ih s fun m hm => hns m (by simp [hm])
  obtain ⟨s1, hw⟩ := hu ns s hns
  obtain ⟨w, hw'⟩ := updateNodes_frame env (ns.map .node) s
  rw [hw] at hw'
  change s1 = { s with world := w } at hw'
  unfold updateIteration
  rw [Py.bind_ok hw]
  have hwf1 : VBWf s1 := by rw [hw']; exact ⟨hwf.nodup, hwf.iter_le, hwf.len⟩
  have hauto1 : s1.autosaveIterations = 0 := by rw [hw']; exact hauto
  obtain ⟨k, hg, hk⟩ := grown_spec s1 hwf1
  have hl : ∀ (ms : List ν) (L : F) (s : VBState ν V O M F),
      (∀ n ∈ s.model, s.iter < (s.l n).length) → (∀ m ∈ ms, m ∈ s.model) →
      ∃ r s', loglikLoop env ms L s = (.ok r, s') := by
    intro ms
    induction ms with
    | nil => exact fun L s _ _ => ⟨L, s, rfl⟩
    | cons m ms ih =>
      intro L s hl hm
      obtain ⟨v, hv⟩ := hco m s.world
      unfold loglikLoop
      rw [Py.bind_get, Py.bind_lift_ok hv]
      rw [Py.bind_lift_ok (setItem_ok (s.l m) s.iter v (hl m (hm m (by simp)))), Py.bind_modify]
      refine ih _ _ (fun n hn => ?_) fun n hn => hm n (by simp [hn])
      by_cases hnm : n = m
      · subst hnm; simpa using hl n hn
      · simpa [hnm] using hl n hn
  rw [endIterationStep_eq]
  obtain ⟨w2, hw2⟩ := hcb (grown s1).world
  have hc : runCallback env (grown s1) = (.ok (), { grown s1 with world := w2 }) := by
    unfold runCallback
    rw [hw2]
  rw [hc]
  have hgm : (grown s1).model = s1.model := by rw [hg]
  obtain ⟨r, s2, hr⟩ := hl (grown s1).model FloatOps.zero { grown s1 with world := w2 } (fun n hn => by
    have hn' : n ∈ s1.model := by rw [← hgm]; exact hn
    show (grown s1).iter < ((grown s1).l n).length
    rw [hg]
    simp only [if_pos hn', List.length_append, List.length_replicate, hwf1.len n hn']
    exact hk) (fun m hm => hm)
  obtain ⟨l', hfr, -⟩ := loglikLoop_frame env (grown s1).model FloatOps.zero { grown s1 with world := w2 }
  rw [hr] at hfr
  change s2 = { { grown s1 with world := w2 } with l := l' } at hfr
  have hll : loglikelihoodLowerbound env { grown s1 with world := w2 } = (.ok r, s2) := hr
  have hi : setItem s2.L s2.iter r = .ok (s2.L.set s2.iter r) := setItem_ok _ _ _ (by
    rw [hfr]
    show (grown s1).iter < (grown s1).L.length
    rw [hg]
    simpa using hk)
  have ha2 : s2.autosaveIterations = 0 := by
    rw [hfr]
    show (grown s1).autosaveIterations = 0
    rw [hg]
    exact hauto1
  simp only [hll, hi]
  have hau : ∀ s3 : VBState ν V O M F, s3.autosaveIterations = 0 → autosave env s3 = (.ok (), s3) := by
    intro s3 h3
    unfold autosave
    rw [Py.bind_get, if_neg (by omega)]
    rfl
  have h3 := hau { s2 with
    L := s2.L.set s2.iter r, converged := convergedFlag s2 (s2.L.set s2.iter r) tol } ha2
  rw [h3]
  exact ⟨_, _, rfl⟩

/-- The loop without auto-save does not raise if no node does. -/
theorem updateLoop_total (env : VBEnv ν V O M F) (hup : ∀ n w, ∃ w', env.update n w = (.ok (), w'))
    (hco : ∀ n w, ∃ v, env.contribution n w = .ok v) (hcb : ∀ w, ∃ w', env.callback w = (.ok (), w'))
    (ns : List ν) (tol : Option F) (k : Nat) (s : VBState ν V O M F)
    (hwf : VBWf s) (hns : ∀ n ∈ ns, n ∈ s.model) (hauto : s.autosaveIterations = 0) :
    ∃ r s', updateLoop env (ns.map .node) tol k s = (.ok r, s') := by
  induction k generalizing s with
  | zero => exact ⟨false, s, rfl⟩
  | succ k ih =>
    obtain ⟨r, s', h⟩ := updateIteration_total env hup hco hcb ns tol s hwf hns hauto
    obtain ⟨hit, -, hwf'⟩ := updateIteration_ok env _ tol s s' hwf r h
    unfold updateLoop
    rw [Py.bind_ok h]
    cases r with
    | true => exact ⟨true, s', rfl⟩
    | false =>
      rw [if_neg (by simp)]
      exact ih s' hwf' (fun n hn => by rw [hit.model]; exact hns n hn) (hit.settings.2.2.2.1.trans hauto)

end

section
variable (G : Net) (name : G.N → String)

theorem foldl_some (c : G.N → ℝ) (ms : List G.N) (a : ℝ) :
    ms.foldl (fun t n => FloatOps.add t (some (c n))) (some a : Option ℝ) = some (a + (ms.map c).sum) := by
  induction ms generalizing a with
  | nil => simp
  | cons m ms ih =>
    rw [List.foldl_cons]
    have e : (FloatOps.add (some a) (some (c m)) : Option ℝ) = some (a + c m) := rfl
    rw [e, ih, List.map_cons, List.sum_cons, add_assoc]

/-- The total of the contributions is the bound of the network. -/
theorem netEnv_bound (ms : List G.N) (hnd : ms.Nodup) (hall : ∀ n, n ∈ ms) (w) (c : G.N → Option ℝ)
    (hc : ∀ n ∈ ms, (netEnv G name).contribution n w = .ok (c n)) :
    ms.foldl (fun t n => FloatOps.add t (c n)) FloatOps.zero = some (G.bound (netDecode G w)) := by
  have e : ms.foldl (fun t n => FloatOps.add t (c n)) FloatOps.zero
      = ms.foldl (fun t n => FloatOps.add t
        (some (∑ q, if G.mask n q then G.contribution n (netDecode G w) q else 0))) (some 0 : Option ℝ) := by
    refine List.foldl_ext _ _ _ fun t n hn => ?_
    have := hc n hn
    injection this with this
    rw [← this]
  rw [e, foldl_some, zero_add]
  congr 1
  unfold Net.bound
  rw [← List.sum_toFinset _ hnd]
  refine Finset.sum_congr ?_ fun _ _ => rfl
  ext n
  simp [hall n]

theorem netEnv_updated (P : G.State → Prop) (hP : ∀ s n, P s → P (G.update n s) ∧ G.bound s ≤ G.bound (G.update n s))
    (model : List G.N) (ks : List (NodeKey G.N)) {w v : G.N → NodeState G.State Unit Unit (Option ℝ)}
    (hv : UpdatedInOrder (netEnv G name) model ks w v) (hw : P (netDecode G w)) :
    P (netDecode G v) ∧ G.bound (netDecode G w) ≤ G.bound (netDecode G v) := by
  induction hv with
  | nil w => exact ⟨hw, le_refl _⟩
  | @update k ks' n w0 w1 w2 _ _ hu _ ih =>
    have hu' := congrArg Prod.snd hu
    change Function.update _ _ _ = _ at hu'
    subst hu'
    rw [netDecode_update] at ih
    have h1 := hP _ n hw
    obtain ⟨h2, h3⟩ := ih h1.1
    exact ⟨h2, h1.2.trans h3⟩
  | skip _ hu _ _ => exact Bool.noConfusion hu

/-- **C91** `update(repeat=None)` of a network: if the updates preserve `P`, do not decrease the bound and the bound is at most
`U`, the loop ends, or the bounds tend to zero. -/
theorem C91_network (P : G.State → Prop) (hP : ∀ s n, P s → P (G.update n s) ∧ G.bound s ≤ G.bound (G.update n s))
    (U : ℝ) (hU : ∀ s, P s → G.bound s ≤ U) (ns : List G.N) (tol : Option (Option ℝ))
    (s : VBState G.N G.State Unit Unit (Option ℝ)) (hr : VBReachable (netEnv G name) s) (hall : ∀ n, n ∈ s.model)
    (hauto : s.autosaveIterations = 0) (hcheck : s.ignoreBoundChecks = false)
    (t : ℝ) (ht : 0 < t) (htol : tol.getD s.tol = some t) (hs : P (netDecode G s.world)) :
    (∃ k s', updateLoop (netEnv G name) (ns.map .node) tol k s = (.ok true, s')) ∨
      ∃ st : ℕ → VBState G.N G.State Unit Unit (Option ℝ),
        (∀ k, updateLoop (netEnv G name) (ns.map .node) tol k s = (.ok false, st k)) ∧
        Tendsto (fun k => G.bound (netDecode G (st k).world)) atTop (𝓝 0) := by
  refine C91_engine (netEnv G name) (ns.map .node) tol s hr t ht htol hcheck
    (fun k => updateLoop_total _ (fun n w => ⟨_, rfl⟩) (fun n w => ⟨_, rfl⟩) (fun w => ⟨_, rfl⟩) ns tol k s hr.wf.1
      (fun n _ => hall n) hauto)
    (fun w => P (netDecode G w)) (fun w => G.bound (netDecode G w)) U hs (fun w v w' hw hv hcb => ?_)
    (fun w c _ hc => netEnv_bound G name s.model hr.wf.1.nodup hall w c hc) fun w hw => hU _ hw
  have e : v = w' := by injection hcb
  subst e
  exact netEnv_updated G name P hP _ _ hv hw

/-- **C91** With an upper bound below zero the loop ends. -/
theorem C91_network_ends (P : G.State → Prop) (hP : ∀ s n, P s → P (G.update n s) ∧ G.bound s ≤ G.bound (G.update n s))
    (U : ℝ) (hU0 : U < 0) (hU : ∀ s, P s → G.bound s ≤ U) (ns : List G.N) (tol : Option (Option ℝ))
    (s : VBState G.N G.State Unit Unit (Option ℝ)) (hr : VBReachable (netEnv G name) s) (hall : ∀ n, n ∈ s.model)
    (hauto : s.autosaveIterations = 0) (hcheck : s.ignoreBoundChecks = false)
    (t : ℝ) (ht : 0 < t) (htol : tol.getD s.tol = some t) (hs : P (netDecode G s.world)) :
    ∃ k s', updateLoop (netEnv G name) (ns.map .node) tol k s = (.ok true, s') := by
  have key : ∀ k s', updateLoop (netEnv G name) (ns.map .node) tol k s = (.ok false, s') → P (netDecode G s'.world) := by
    intro k s' h
    obtain ⟨-, j, -, c, hc0, hcj, hch, -⟩ := updateLoop_chain _ _ _ k s s' hr.wf.1 false h
    have : ∀ i ≤ j, P (netDecode G (c i).world) := by
      intro i
      induction i with
      | zero => exact fun _ => by rw [hc0]; exact hs
      | succ i ih =>
        intro hi
        obtain ⟨v, hv, hcb⟩ := (hch i hi).updated
        have e : v = (c (i + 1)).world := by injection hcb
        subst e
        exact netEnv_updated G name P hP _ _ hv (ih (by omega)) |>.1
    rw [← hcj]
    exact this j le_rfl
  rcases C91_network G name P hP U hU ns tol s hr hall hauto hcheck t ht htol hs with h | ⟨st, hst, hlim⟩
  · exact h
  · exact absurd (le_of_tendsto' hlim fun k => hU _ (key k _ (hst k))) (not_le.2 hU0)

end

/-! ### the model of normal observations -/

section
variable (P : NGParams)
open MeasureTheory Set

/-- a bound of the evidence which does not depend on the data -/
noncomputable def Spec.ngEvidenceBound : ℝ :=
  P.b0 ^ P.a0 / Real.Gamma P.a0 * (2 * Real.pi) ^ (-(P.D / 2 : ℝ))
    * (Real.Gamma (P.a0 + P.D / 2) * P.b0 ^ (-(P.a0 + P.D / 2)))

theorem lintegral_normalPdf (mu alpha : ℝ) (ha : 0 < alpha) : ∫⁻ x : ℝ, ENNReal.ofReal (normalPdf mu alpha x) = 1 := by
  have hp := Real.pi_pos
  have e : ∀ x, normalPdf mu alpha x = Real.sqrt (alpha / (2 * Real.pi)) * Real.exp (-(alpha / 2) * (x - mu) ^ 2) := fun x => by
    rw [normalPdf, neg_div]
  have hi : Integrable fun x => Real.exp (-(alpha / 2) * (x - mu) ^ 2) :=
    (integrable_exp_neg_mul_sq (half_pos ha)).comp_sub_right mu
  simp only [e]
  rw [← ofReal_integral_eq_lintegral_ofReal (hi.const_mul _) (ae_of_all _ fun x => by positivity), integral_const_mul,
    integral_sub_right_eq_self fun x : ℝ => Real.exp (-(alpha / 2) * x ^ 2), integral_gaussian,
    ← Real.sqrt_mul (by positivity), show alpha / (2 * Real.pi) * (Real.pi / (alpha / 2)) = 1 by field_simp, Real.sqrt_one,
    ENNReal.ofReal_one]

theorem ng_evidence_le (data : Fin P.D → ℝ) (ha : 0 < P.alpha0) (ha0 : 0 < P.a0) (hb0 : 0 < P.b0) :
    ∫⁻ mu : ℝ, ∫⁻ tau in Ioi (0 : ℝ), ENNReal.ofReal
        (normalPdf P.mu0 P.alpha0 mu * gammaPdf P.a0 P.b0 tau * ∏ p, normalPdf mu tau (data p))
      ≤ ENNReal.ofReal (ngEvidenceBound P) := by
  have hpi := Real.pi_pos
  have hG := Real.Gamma_pos_of_pos ha0
  have hn : ∀ mu tau y : ℝ, 0 ≤ normalPdf mu tau y := fun mu tau y => mul_nonneg (Real.sqrt_nonneg _) (Real.exp_pos _).le
  have hb : ∀ mu tau y : ℝ, 0 < tau → normalPdf mu tau y ≤ Real.sqrt (tau / (2 * Real.pi)) := by
    intro mu tau y ht
    refine mul_le_of_le_one_right (Real.sqrt_nonneg _) (Real.exp_le_one_iff.2 ?_)
    have := mul_nonneg ht.le (sq_nonneg (y - mu))
    linarith [show -tau / 2 * (y - mu) ^ 2 = -(tau * (y - mu) ^ 2) / 2 by ring]
  set C := P.b0 ^ P.a0 / Real.Gamma P.a0 * (2 * Real.pi) ^ (-(P.D / 2 : ℝ)) with hC
  have hC0 : 0 ≤ C := by positivity
  have hin : ∀ mu : ℝ, ∫⁻ tau in Ioi (0 : ℝ), ENNReal.ofReal
        (normalPdf P.mu0 P.alpha0 mu * gammaPdf P.a0 P.b0 tau * ∏ p, normalPdf mu tau (data p))
      ≤ ENNReal.ofReal (normalPdf P.mu0 P.alpha0 mu) * ENNReal.ofReal (ngEvidenceBound P) := by
    intro mu
    have hk := lintegral_gammaKernel (P.a0 + P.D / 2) P.b0 (by positivity) hb0
    have e : ENNReal.ofReal (normalPdf P.mu0 P.alpha0 mu) * ENNReal.ofReal (ngEvidenceBound P)
        = ∫⁻ tau in Ioi (0 : ℝ), ENNReal.ofReal (normalPdf P.mu0 P.alpha0 mu) * (ENNReal.ofReal C *
          ENNReal.ofReal (tau ^ (P.a0 + P.D / 2 - 1) * Real.exp (-(P.b0 * tau)))) := by
      rw [lintegral_const_mul' _ _ ENNReal.ofReal_ne_top, lintegral_const_mul' _ _ ENNReal.ofReal_ne_top, hk,
        ← ENNReal.ofReal_mul hC0]
      rfl
    rw [e]
    refine setLIntegral_mono' measurableSet_Ioi fun tau ht => ?_
    have ht : 0 < tau := ht
    rw [← ENNReal.ofReal_mul hC0, ← ENNReal.ofReal_mul (hn _ _ _)]
    refine ENNReal.ofReal_le_ofReal ?_
    rw [mul_assoc]
    refine mul_le_mul_of_nonneg_left ?_ (hn _ _ _)
    have hprod : ∏ p, normalPdf mu tau (data p) ≤ tau ^ (P.D / 2 : ℝ) * (2 * Real.pi) ^ (-(P.D / 2 : ℝ)) := by
      refine (Finset.prod_le_prod (fun p _ => hn _ _ _) fun p _ => hb mu tau (data p) ht).trans_eq ?_
      rw [Finset.prod_const, Finset.card_univ, Fintype.card_fin, Real.sqrt_eq_rpow, ← Real.rpow_natCast,
        ← Real.rpow_mul (by positivity), Real.div_rpow ht.le (by positivity), Real.rpow_neg (by positivity), div_eq_mul_inv,
        show (1 / 2 * (P.D : ℝ)) = P.D / 2 by ring]
    have hg : 0 ≤ gammaPdf P.a0 P.b0 tau := by
      unfold gammaPdf
      positivity
    refine (mul_le_mul_of_nonneg_left hprod hg).trans_eq ?_
    rw [hC, gammaPdf, show P.a0 + (P.D : ℝ) / 2 - 1 = (P.a0 - 1) + P.D / 2 by ring, Real.rpow_add ht]
    ring
  refine (lintegral_mono hin).trans_eq ?_
  rw [lintegral_mul_const' _ _ ENNReal.ofReal_ne_top, lintegral_normalPdf _ _ ha, one_mul]

/-- The bound of the model is at most a number which does not depend on the data. -/
theorem ng_bound_le (data : Fin P.D → ℝ) (ha : 0 < P.alpha0) (ha0 : 0 < P.a0) (hb0 : 0 < P.b0)
    (s : (ngNet P).State) (hs : NGState P data s) (hf : ∀ p : Fin P.D, s.f NG.y p = ardF 1) :
    (ngNet P).bound s ≤ Real.log (ngEvidenceBound P) := by
  have h := (C90_normal_model P data ha ha0 hb0 s hs hf []).trans (ng_evidence_le P data ha ha0 hb0)
  have hpos : 0 < ngEvidenceBound P := by
    have hpi := Real.pi_pos
    have hG := Real.Gamma_pos_of_pos ha0
    have hG' := Real.Gamma_pos_of_pos (show 0 < P.a0 + (P.D : ℝ) / 2 by positivity)
    unfold ngEvidenceBound
    positivity
  rw [ENNReal.ofReal_le_ofReal_iff hpos.le] at h
  exact (Real.le_log_iff_exp_le hpos).2 h

theorem ng_step (data : Fin P.D → ℝ) (ha : 0 < P.alpha0) (ha0 : 0 < P.a0) (hb0 : 0 < P.b0) (s : (ngNet P).State) (n : NG)
    (h : NGState P data s ∧ ∀ p : Fin P.D, s.f NG.y p = ardF 1) :
    (NGState P data ((ngNet P).update n s) ∧ ∀ p : Fin P.D, ((ngNet P).update n s).f NG.y p = ardF 1) ∧
      (ngNet P).bound s ≤ (ngNet P).bound ((ngNet P).update n s) :=
  have h' := C23_normal_model P data ha ha0 hb0 s h.1 [n]
  ⟨⟨h'.2, h.2⟩, h'.1⟩

/-- **C91, normal model** Whatever the data, the hyperparameters, the current distributions, the nodes that are updated and the
(positive) tolerance: `update(repeat=None)` ends, or the bounds tend to zero. -/
theorem C91_normal_model (data : Fin P.D → ℝ) (ha : 0 < P.alpha0) (ha0 : 0 < P.a0) (hb0 : 0 < P.b0) (name : NG → String)
    (ns : List NG) (tol : Option (Option ℝ)) (s : VBState NG (ngNet P).State Unit Unit (Option ℝ))
    (hr : VBReachable (netEnv (ngNet P) name) s) (hall : ∀ n : NG, n ∈ s.model)
    (hauto : s.autosaveIterations = 0) (hcheck : s.ignoreBoundChecks = false)
    (t : ℝ) (ht : 0 < t) (htol : tol.getD s.tol = some t)
    (hs : NGState P data (netDecode (ngNet P) s.world)) (hf : ∀ p : Fin P.D, (netDecode (ngNet P) s.world).f NG.y p = ardF 1) :
    (∃ k s', updateLoop (netEnv (ngNet P) name) (ns.map .node) tol k s = (.ok true, s')) ∨
      ∃ st : ℕ → VBState NG (ngNet P).State Unit Unit (Option ℝ),
        (∀ k, updateLoop (netEnv (ngNet P) name) (ns.map .node) tol k s = (.ok false, st k)) ∧
        Tendsto (fun k => (ngNet P).bound (netDecode (ngNet P) (st k).world)) atTop (𝓝 0) :=
  C91_network (ngNet P) name (fun s => NGState P data s ∧ ∀ p : Fin P.D, s.f NG.y p = ardF 1)
    (fun s n h => ng_step P data ha ha0 hb0 s n h) (Real.log (ngEvidenceBound P))
    (fun s h => ng_bound_le P data ha ha0 hb0 s h.1 h.2) ns tol s hr hall hauto hcheck t ht htol ⟨hs, hf⟩

/-- **C91, normal model** With hyperparameters for which the evidence is below one for all data, `update(repeat=None)` ends. -/
theorem C91_normal_model_ends (data : Fin P.D → ℝ) (ha : 0 < P.alpha0) (ha0 : 0 < P.a0) (hb0 : 0 < P.b0)
    (hE : ngEvidenceBound P < 1) (name : NG → String)
    (ns : List NG) (tol : Option (Option ℝ)) (s : VBState NG (ngNet P).State Unit Unit (Option ℝ))
    (hr : VBReachable (netEnv (ngNet P) name) s) (hall : ∀ n : NG, n ∈ s.model)
    (hauto : s.autosaveIterations = 0) (hcheck : s.ignoreBoundChecks = false)
    (t : ℝ) (ht : 0 < t) (htol : tol.getD s.tol = some t)
    (hs : NGState P data (netDecode (ngNet P) s.world)) (hf : ∀ p : Fin P.D, (netDecode (ngNet P) s.world).f NG.y p = ardF 1) :
    ∃ k s', updateLoop (netEnv (ngNet P) name) (ns.map .node) tol k s = (.ok true, s') := by
  have hpos : 0 < ngEvidenceBound P := by
    have hpi := Real.pi_pos
    have hG := Real.Gamma_pos_of_pos ha0
    have hG' := Real.Gamma_pos_of_pos (show 0 < P.a0 + (P.D : ℝ) / 2 by positivity)
    unfold ngEvidenceBound
    positivity
  exact C91_network_ends (ngNet P) name (fun s => NGState P data s ∧ ∀ p : Fin P.D, s.f NG.y p = ardF 1)
    (fun s n h => ng_step P data ha ha0 hb0 s n h) (Real.log (ngEvidenceBound P)) (Real.log_neg hpos hE)
    (fun s h => ng_bound_le P data ha ha0 hb0 s h.1 h.2) ns tol s hr hall hauto hcheck t ht htol ⟨hs, hf⟩

end

/-! ### a model without data -/

section
variable {ν V O M : Type _} [DecidableEq ν]

/-- **C91, refuted** Where every iteration leaves a bound of zero, the relative change is `0/0`, which is not less than any
tolerance: `update(repeat=None)` does not return. -/
theorem C91_zero_refuted (env : VBEnv ν V O M (Option ℝ)) (keys : List (NodeKey ν)) (tol : Option (Option ℝ))
    (hz : ∀ model w v w' (c : ν → Option ℝ), UpdatedInOrder env model keys w v → env.callback v = (.ok (), w') →
      (∀ n ∈ model, env.contribution n w' = .ok (c n)) →
      model.foldl (fun t n => FloatOps.add t (c n)) FloatOps.zero = some 0)
    (s : VBState ν V O M (Option ℝ)) (hwf : VBWf s)
    (h0 : 0 < s.iter → (s.L.take s.iter)[s.iter - 1]? = some (some 0)) (k : ℕ) (s' : VBState ν V O M (Option ℝ)) :
    updateLoop env keys tol k s ≠ (.ok true, s') := by
  induction k generalizing s with
  | zero =>
    intro h
    injection h with h1 _
    injection h1 with h1
    cases h1
  | succ k ih =>
    intro h
    unfold updateLoop at h
    rcases hi : updateIteration env keys tol s with ⟨_ | c, s1⟩
    · rw [Py.bind_error hi] at h
      cases h
    · rw [Py.bind_ok hi] at h
      obtain ⟨hit, hc, hwf1⟩ := updateIteration_ok env keys tol s s1 hwf c hi
      obtain ⟨v, hv, hcb⟩ := hit.updated
      obtain ⟨cs, hcs, -, hL⟩ := hit.history
      rw [hz _ _ _ _ cs hv hcb hcs] at hL
      have hlen : (s.L.take s.iter).length = s.iter := by rw [List.length_take, min_eq_left hwf.iter_le]
      have hnew : (s1.L.take (s.iter + 1))[s.iter]? = some (some 0) := by
        rw [hL, List.getElem?_append_right (by rw [hlen]), hlen]
        simp
      have hnc : s1.converged = false := by
        by_contra hne
        rw [Bool.not_eq_false, hit.converged] at hne
        obtain ⟨-, -, a, b, hb, hpos, ha, hlt⟩ := hne
        have eb : s1.L[s.iter]? = some (some 0) := by rw [← hnew, List.getElem?_take_of_lt (Nat.lt_succ_self _)]
        have ea : s1.L[s.iter - 1]? = some (some 0) := by
          rw [← h0 hpos]
          have : s1.L[s.iter - 1]? = (s1.L.take (s.iter + 1))[s.iter - 1]? := by
            rw [List.getElem?_take_of_lt (by omega)]
          rw [this, hL, List.getElem?_append_left (by rw [hlen]; omega)]
        rw [eb] at hb
        rw [ea] at ha
        injection hb with hb
        injection ha with ha
        subst hb ha
        simp [FloatOps.div, FloatOps.sub, FloatOps.mul, FloatOps.half, FloatOps.add, FloatOps.abs, FloatOps.lt] at hlt
      cases c with
      | true =>
        rw [← hc] at hnc
        cases hnc
      | false =>
        rw [if_neg (by simp)] at h
        refine ih s1 hwf1 (fun _ => ?_) h
        rw [hit.iter, Nat.add_sub_cancel]
        exact hnew

end

/-- `lam = Gamma(1, 1)`, without children -/
noncomputable def priorNet : Net where
  N := Unit
  fam := fun _ => gammaFamily
  plate := fun _ => Unit
  ann := fun _ => 1
  bias := fun _ _ _ => 0
  observed := fun _ _ => false
  mask := fun _ _ => true
  slot := fun _ k _ _ => if (show Fin 2 from k) = 0 then gammaPriorFixed 1 else gammaFixed 1
  back := fun _ _ _ _ _ _ _ => 0

/-- After its update the bound of the node is zero, whatever its distribution was. -/
theorem prior_bound (s : priorNet.State) : priorNet.bound (priorNet.update () s) = 0 := by
  have hphi : priorNet.newPhi () s () = (![-1, 1] : Fin 2 → ℝ) := by
    funext j
    show 1 * ((gammaPhi (gammaPriorFixed 1) (gammaFixed 1) j + 0) + ∑ _c : Unit, ∑ _k : Fin 2, (0 : ℝ)) = _
    simp [gammaPhi, gammaPriorFixed, gammaFixed]
  have e : priorNet.bound (priorNet.update () s) = priorNet.contribution () (priorNet.update () s) () := by
    refine (Fintype.sum_unique (ι := Unit) _).trans ?_
    exact (Fintype.sum_unique (ι := Unit) _).trans (if_pos rfl)
  rw [e]
  have hg : (priorNet.update () s).g () () = gammaCgf (![-1, 1] : Fin 2 → ℝ) := by
    rw [← hphi]
    rfl
  have hp : (priorNet.update () s).phi () () = (![-1, 1] : Fin 2 → ℝ) := hphi
  show gammaCgfP (gammaPriorFixed 1) (gammaFixed 1) + -(1 / 1) * (priorNet.update () s).g () ()
    + ∑ i : Fin 2, (if (priorNet.update () s).u () () i ≠ 0 then
        gammaPhi (gammaPriorFixed 1) (gammaFixed 1) i - 1 / 1 * (priorNet.update () s).phi () () i else 0)
      * (priorNet.update () s).u () () i = 0
  rw [hg, hp]
  have h1 : gammaPhi (gammaPriorFixed 1) (gammaFixed 1) = ![-1, 1] := by
    funext i
    fin_cases i <;> simp [gammaPhi, gammaPriorFixed, gammaFixed]
  rw [h1]
  simp [gammaCgfP, gammaCgf, gammaPriorFixed, gammaFixed, gammaln]

/-- **C91, refuted** For the model of one `Gamma(1, 1)` node, `VB(lam).update(repeat=None)` does not return, whatever the
initial distribution and the tolerance. -/
theorem C91_no_data_refuted (t : Option ℝ) (it : Nat) (tol : Option (Option ℝ))
    (w : Unit → NodeState priorNet.State Unit Unit (Option ℝ)) (f) (s : VBState Unit priorNet.State Unit Unit (Option ℝ))
    (h : vbInit (netEnv priorNet fun _ => "lam") [()] t it w f = .ok s) (k : ℕ) (s') :
    updateLoop (netEnv priorNet fun _ => "lam") (s.model.map .node) tol k s ≠ (.ok true, s') := by
  have hwf := vbInit_wf _ _ _ _ _ _ _ h
  have hs : s.model = [()] ∧ s.iter = 0 := by
    unfold vbInit at h
    simp only [List.length_map, ne_eq, not_true, if_false] at h
    injection h with h
    subst h
    exact ⟨rfl, rfl⟩
  rw [hs.1]
  refine C91_zero_refuted _ _ tol (fun model w v w' c hv hcb hc => ?_) s hwf (fun h => absurd h (by omega)) k s'
  have hd : netDecode priorNet w' = priorNet.update () (netDecode priorNet w) := by
    have e : v = w' := by injection hcb
    subst e
    cases hv with
    | @update _ _ n _ w1 _ _ _ hu hn =>
      cases hn
      have hu' := congrArg Prod.snd hu
      exact (congrArg (netDecode priorNet) hu').symm.trans (netDecode_update priorNet n w)
    | skip _ hu _ => exact Bool.noConfusion hu
  have hz : ∀ n ∈ model, c n = some 0 := by
    intro n hn
    have := hc n hn
    injection this with this
    rw [← this]
    refine congrArg some ?_
    have hb := prior_bound (netDecode priorNet w)
    rw [← hd] at hb
    refine Eq.trans ?_ hb
    exact (Fintype.sum_unique (ι := Unit)
      fun n : Unit => ∑ q : Unit, if priorNet.mask n q then priorNet.contribution n (netDecode priorNet w') q else 0).symm
  clear hv hcb hc
  induction model with
  | nil => rfl
  | cons m ms ih =>
    rw [List.foldl_cons, hz m (by simp)]
    have e : (FloatOps.add FloatOps.zero (some 0) : Option ℝ) = FloatOps.zero := congrArg some (add_zero 0)
    rw [e]
    exact ih fun n hn => hz n (by simp [hn])

/-! ### examples -/

/-- two observations, the distributions initialised to `N(0, 1)` and `Gamma(1, 1)` -/
noncomputable def exNG : (ngNet ⟨2, 0, 1, 1, 1⟩).State :=
  ⟨fun n => match n with
      | .mu => fun _ => (![0, -1 / 2] : Fin 2 → ℝ)
      | .tau => fun _ => (![-1, 1] : Fin 2 → ℝ)
      | .y => fun _ => (![0, 0] : Fin 2 → ℝ),
    fun n => match n with
      | .mu => fun _ => ardMoments0 ![0, -1 / 2]
      | .tau => fun _ => gammaMoments ![-1, 1]
      | .y => fun p => (![(![1, 4] : Fin 2 → ℝ) p, (![1, 4] : Fin 2 → ℝ) p * (![1, 4] : Fin 2 → ℝ) p] : Fin 2 → ℝ),
    fun n => match n with
      | .mu => fun _ => ardCgf0 ![0, -1 / 2]
      | .tau => fun _ => gammaCgf ![-1, 1]
      | .y => fun _ => 0,
    fun _ _ => ardF 1⟩

theorem exNG_state : NGState ⟨2, 0, 1, 1, 1⟩ ![1, 4] exNG := by
  refine ⟨?_, fun p => rfl⟩
  intro n q ho
  change NG at n
  cases n
  · refine ⟨?_, rfl, rfl⟩
    change (![0, -1 / 2] : Fin 2 → ℝ) 1 < 0
    norm_num
  · refine ⟨?_, rfl, rfl⟩
    change (![-1, 1] : Fin 2 → ℝ) 0 < 0 ∧ 0 < (![-1, 1] : Fin 2 → ℝ) 1
    norm_num
  · exact absurd ho (by simp [ngNet])

theorem exNG_bound : ngEvidenceBound ⟨2, 0, 1, 1, 1⟩ < 1 := by
  have hp := Real.pi_gt_three
  have e : ngEvidenceBound ⟨2, 0, 1, 1, 1⟩ = (2 * Real.pi)⁻¹ := by
    unfold ngEvidenceBound
    have : Real.Gamma (1 + 1) = 1 := by simpa using Real.Gamma_nat_eq_factorial 1
    norm_num [Real.Gamma_one, this, Real.rpow_neg_one]
  rw [e]
  exact inv_lt_one_of_one_lt₀ (by linarith)

theorem vbInit_eq {ν V O M F : Type _} [DecidableEq ν] [FloatOps F] (env : VBEnv ν V O M F) (nodes : List ν) (tol : F) (it : Nat)
    (w : ν → NodeState V O M F) (f : Option (H5 V O F)) :
    vbInit env nodes tol it w f = .ok ⟨unique nodes, w, 0, false, false, false, [], fun _ => [], tol, it, none, f⟩ := by
  unfold vbInit
  simp only [List.length_map, ne_eq, not_true, if_false]

/-- `Q = VB(lam); Q.update(repeat=None)` goes on for ever: after any number of iterations it has not returned -/
example : ∃ s, vbInit (netEnv priorNet fun _ => "lam") [()] (some 1e-5) 0
      (fun _ => ⟨⟨fun _ _ => ![-3, 5], fun _ _ => gammaMoments ![-3, 5], fun _ _ => gammaCgf ![-3, 5], fun _ _ => 0⟩, (), (), some 1⟩)
      none = .ok s ∧
    ∀ k, ∃ s', updateLoop (netEnv priorNet fun _ => "lam") (s.model.map .node) none k s = (.ok false, s') := by
  refine ⟨_, vbInit_eq _ _ _ _ _ _, fun k => ?_⟩
  obtain ⟨r, s', h⟩ := updateLoop_total (netEnv priorNet fun _ => "lam") (fun n w => ⟨_, rfl⟩) (fun n w => ⟨_, rfl⟩)
    (fun w => ⟨_, rfl⟩) [()] none k _ (vbInit_wf _ _ _ _ _ _ _ (vbInit_eq (netEnv priorNet fun _ => "lam") [()] (some 1e-5) 0
      (fun _ => ⟨⟨fun _ _ => ![-3, 5], fun _ _ => gammaMoments ![-3, 5], fun _ _ => gammaCgf ![-3, 5], fun _ _ => 0⟩, (), (), some 1⟩)
      none)) (fun n _ => (List.mem_singleton.2 rfl : () ∈ [()])) rfl
  cases r with
  | false => exact ⟨s', h⟩
  | true => exact absurd h (C91_no_data_refuted _ _ none _ _ _ (vbInit_eq _ _ _ _ _ _) k s')

/-- `Q = VB(y, mu, tau); Q.update(mu, tau, repeat=None)` ends -/
example : ∃ s, vbInit (netEnv (ngNet ⟨2, 0, 1, 1, 1⟩) fun _ => "") [NG.y, NG.mu, NG.tau] (some 1e-5) 0
      (fun _ => ⟨exNG, (), (), some 1⟩) none = .ok s ∧
    ∃ k s', updateLoop (netEnv (ngNet ⟨2, 0, 1, 1, 1⟩) fun _ => "") ([NG.mu, NG.tau].map .node) none k s = (.ok true, s') := by
  refine ⟨_, vbInit_eq _ _ _ _ _ _, C91_normal_model_ends ⟨2, 0, 1, 1, 1⟩ ![1, 4] one_pos one_pos one_pos exNG_bound
    (fun _ => "") [NG.mu, NG.tau] none _ ⟨_, _, _, _, _, _, [], vbInit_eq _ _ _ _ _ _, rfl⟩ (fun n => ?_) rfl rfl 1e-5
    (by norm_num) rfl exNG_state fun p => rfl⟩
  cases n <;> decide

end Verif
