import Verif.Model.Optimize
import Verif.Props.Engine
import Mathlib.Tactic.Linarith
import Mathlib.Tactic.Ring

/-!
# C42: `VB.optimize` and `VB.pattern_search`
-/

namespace Verif
open Spec

set_option linter.unusedSectionVars false

section
variable {ν V O M F P : Type _} [DecidableEq ν] [OptOps F]

theorem setNode_frame (env : OptEnv ν V O M F P) (k : NodeKey ν) (p : P) (s : VBState ν V O M F) :
    ∃ w, (setNode env k p s).2 = { s with world := w } := by
  unfold setNode
  split
  · exact ⟨s.world, rfl⟩
  · exact ⟨_, rfl⟩

theorem setParameters_frame (env : OptEnv ν V O M F P) (ps : List P) (ks : List (NodeKey ν))
    (s : VBState ν V O M F) : ∃ w, (setParameters env ps ks s).2 = { s with world := w } := by
  induction ps generalizing ks s with
  | nil => cases ks <;> exact ⟨s.world, rfl⟩
  | cons p ps ih =>
    cases ks with
    | nil => exact ⟨s.world, rfl⟩
    | cons k ks =>
      unfold setParameters
      obtain ⟨w, hw⟩ := setNode_frame env k p s
      rcases h : setNode env k p s with ⟨e | _, s1⟩
      · rw [Py.bind_error h]; rw [h] at hw; exact ⟨w, hw⟩
      · rw [Py.bind_ok h]; rw [h] at hw
        obtain ⟨w', hw'⟩ := ih ks s1
        refine ⟨w', ?_⟩
        rw [hw']
        simp only at hw
        rw [hw]

theorem updateEach_frame (env : OptEnv ν V O M F P) (ks : List (NodeKey ν))
    (s : VBState ν V O M F) : ∃ w, (updateEach env ks s).2 = { s with world := w } := by
  induction ks generalizing s with
  | nil => exact ⟨s.world, rfl⟩
  | cons k ks ih =>
    have h1 : ∃ w, (updateOne env k s).2 = { s with world := w } := by
      unfold updateOne
      split
      · exact ⟨s.world, rfl⟩
      · split
        · exact ⟨_, rfl⟩
        · exact ⟨s.world, rfl⟩
    obtain ⟨w, hw⟩ := h1
    unfold updateEach
    rcases h : updateOne env k s with ⟨e | _, s1⟩
    · rw [Py.bind_error h]; rw [h] at hw; exact ⟨w, hw⟩
    · rw [Py.bind_ok h]; rw [h] at hw
      obtain ⟨w', hw'⟩ := ih s1
      refine ⟨w', ?_⟩
      rw [hw']
      simp only at hw
      rw [hw]

theorem searchLoop_spec (env : OptEnv ν V O M F P) (keys collapsed : List (NodeKey ν))
    (p g2 : List P) (fuel : Nat) (v : Search F P) (s : VBState ν V O M F) :
    (∃ w, (searchLoop env keys collapsed p g2 fuel v s).2 = { s with world := w }) ∧
    ∀ r, (searchLoop env keys collapsed p g2 fuel v s).1 = .ok (some r) →
      ∃ L, computeLowerbound env.toVBEnv (searchLoop env keys collapsed p g2 fuel v s).2 = .ok L ∧
        rejects (searchLoop env keys collapsed p g2 fuel v s).2 L = false := by
  induction fuel generalizing v s with
  | zero => exact ⟨⟨s.world, rfl⟩, fun r h => by cases h⟩
  | succ fuel ih =>
    have chain : ∀ (s1 : VBState ν V O M F) (v' : Search F P), (∃ w, s1 = { s with world := w }) →
        (∃ w, (searchLoop env keys collapsed p g2 fuel v' s1).2 = { s with world := w }) ∧
        ∀ r, (searchLoop env keys collapsed p g2 fuel v' s1).1 = .ok (some r) →
          ∃ L, computeLowerbound env.toVBEnv (searchLoop env keys collapsed p g2 fuel v' s1).2
              = .ok L ∧ rejects (searchLoop env keys collapsed p g2 fuel v' s1).2 L = false := by
      rintro s1 v' ⟨w, rfl⟩
      obtain ⟨⟨w', hw'⟩, h2⟩ := ih v' { s with world := w }
      exact ⟨⟨w', hw'⟩, h2⟩
    unfold searchLoop
    cases hadd : addVec env p v.dir v.scale with
    | error e => exact ⟨⟨s.world, rfl⟩, fun r h => by cases h⟩
    | ok pNew =>
      simp only []
      have hf1 := setParameters_frame env pNew keys s
      rcases hset : setParameters env pNew keys s with ⟨e | _, s1⟩
      · rw [hset] at hf1
        simp only []
        exact chain s1 _ hf1
      · rw [hset] at hf1
        simp only [] at hf1 ⊢
        cases hget : getParameters env collapsed s1 with
        | error e => exact ⟨hf1, fun r h => by cases h⟩
        | ok cp =>
          simp only []
          have hf2 := updateEach_frame env collapsed s1
          have restore : ∀ s2 : VBState ν V O M F, (∃ w, s2 = { s with world := w }) →
              ∃ w, (setParameters env cp collapsed s2).2 = { s with world := w } := by
            rintro s2 ⟨w, rfl⟩
            exact setParameters_frame env cp collapsed { s with world := w }
          have hs2 : ∀ s2 : VBState ν V O M F, (∃ w, s2 = { s1 with world := w }) →
              ∃ w, s2 = { s with world := w } := by
            rintro s2 ⟨w, rfl⟩
            obtain ⟨w1, hw1⟩ := hf1
            exact ⟨w, by rw [hw1]⟩
          rcases hup : updateEach env collapsed s1 with ⟨e | _, s2⟩
          · rw [hup] at hf2
            simp only [] at hf2 ⊢
            have hr := restore s2 (hs2 s2 hf2)
            rcases hset2 : setParameters env cp collapsed s2 with ⟨e | _, s3⟩
            · rw [hset2] at hr
              exact ⟨hr, fun r h => by cases h⟩
            · rw [hset2] at hr
              simp only [] at hr ⊢
              exact chain s3 _ hr
          · rw [hup] at hf2
            simp only [] at hf2 ⊢
            cases hL : computeLowerbound env.toVBEnv s2 with
            | error e => exact ⟨hs2 s2 hf2, fun r h => by cases h⟩
            | ok L =>
              simp only []
              by_cases hrej : rejects s2 L = true
              · rw [if_pos hrej]
                have hr := restore s2 (hs2 s2 hf2)
                rcases hset2 : setParameters env cp collapsed s2 with ⟨e | _, s3⟩
                · rw [hset2] at hr
                  exact ⟨hr, fun r h => by cases h⟩
                · rw [hset2] at hr
                  simp only [] at hr ⊢
                  exact chain s3 _ hr
              · rw [if_neg hrej]
                exact ⟨hs2 s2 hf2, fun r _ => ⟨L, hL, Bool.eq_false_of_not_eq_true hrej⟩⟩

theorem foldlM_ok (contr : ν → Except PyErr F) (ns : List ν) (c : ν → F)
    (h : ∀ n ∈ ns, contr n = .ok (c n)) (a : F) :
    ns.foldlM (fun L n => do return FloatOps.add L (← contr n)) a
      = (.ok (ns.foldl (fun L n => FloatOps.add L (c n)) a) : Except PyErr F) := by
  induction ns generalizing a with
  | nil => rfl
  | cons n ns ih =>
    rw [List.foldlM_cons, h n (by simp)]
    exact ih (fun m hm => h m (by simp [hm])) _

/-- Entry `i` of a bound history was accepted: it is a number, and not less than the previous entry,
unless the two are close. -/
def Accepted (L : List F) (i : Nat) : Prop :=
  ∃ b, L[i]? = some b ∧ OptOps.isNan b = false ∧
    (0 < i → ∃ a, L[i - 1]? = some a ∧ (FloatOps.lt b a = true → OptOps.allclose b a = true))

theorem optimizeLoop_spec (env : OptEnv ν V O M F P) (keys collapsed : List (NodeKey ν))
    (fletcher riem : Bool) (tol : Option F) (fuel n : Nat) (p : List P) (v : Search F P)
    (s : VBState ν V O M F) (hcb : ∀ w, (env.callback w).2 = w) (hwf : VBWf s) (hsm : SumsMatch s) :
    let r := optimizeLoop env keys collapsed fletcher riem tol fuel n p v s
    VBWf r.2 ∧ SumsMatch r.2 ∧ Extends s r.2 ∧
      (∀ i, s.iter ≤ i → i < r.2.iter → Accepted r.2.L i) ∧
      (r.1 = .ok (some ()) → r.2.iter ≤ s.iter + n ∧ (s.iter < r.2.iter →
        ∃ b, computeLowerbound env.toVBEnv r.2 = .ok b ∧ r.2.L[r.2.iter - 1]? = some b) ∧
        (r.2.iter = s.iter → r.2 = s)) := by
  induction n generalizing p v s with
  | zero =>
    refine ⟨hwf, hsm, Extends.refl s, fun i h1 h2 => ?_, fun _ => ⟨le_refl _, fun h => ?_, fun _ => rfl⟩⟩
    · change i < s.iter at h2; omega
    · change s.iter < s.iter at h; omega
  | succ n ih =>
    -- a result that only changed the nodes
    have stay : ∀ (x : Except PyErr (Option Unit)) (s1 : VBState ν V O M F),
        (∃ w, s1 = { s with world := w }) → x ≠ .ok (some ()) →
        VBWf s1 ∧ SumsMatch s1 ∧ Extends s s1 ∧
          (∀ i, s.iter ≤ i → i < s1.iter → Accepted s1.L i) ∧
          (x = .ok (some ()) → s1.iter ≤ s.iter + (n + 1) ∧ (s.iter < s1.iter →
            ∃ b, computeLowerbound env.toVBEnv s1 = .ok b ∧ s1.L[s1.iter - 1]? = some b) ∧
            (s1.iter = s.iter → s1 = s)) := by
      rintro x s1 ⟨w, rfl⟩ hx
      obtain ⟨a, b, c⟩ := Good.of_eq (s := s) (s' := { s with world := w }) rfl rfl rfl rfl hwf hsm
      refine ⟨a, b, c, fun i h1 h2 => ?_, fun h => absurd h hx⟩
      change i < s.iter at h2; omega
    unfold optimizeLoop
    cases hdir : direction env keys fletcher riem v s with
    | error e => exact stay _ s ⟨s.world, rfl⟩ (by simp)
    | ok vg =>
      obtain ⟨v1, g2⟩ := vg
      simp only []
      obtain ⟨hfr, hacc⟩ := searchLoop_spec env keys collapsed p g2 fuel v1 s
      rcases hsl : searchLoop env keys collapsed p g2 fuel v1 s with ⟨e | o, s1⟩
      · rw [hsl] at hfr; exact stay _ s1 hfr (by simp)
      · rw [hsl] at hfr hacc
        cases o with
        | none => exact stay _ s1 hfr (by simp)
        | some vp =>
          obtain ⟨v2, pNew⟩ := vp
          obtain ⟨L, hL, hrej⟩ := hacc _ rfl
          simp only [] at hL hrej hfr ⊢
          obtain ⟨w1, hw1⟩ := hfr
          obtain ⟨hwf1, hsm1, hext1⟩ :=
            Good.of_eq (s := s) (s' := s1) (by rw [hw1]) (by rw [hw1]) (by rw [hw1]) (by rw [hw1])
              hwf hsm
          have hi1 : s1.iter = s.iter := by rw [hw1]
          have hgood := endIterationStep_good env.toVBEnv tol s1 hwf1 hsm1
          rcases hend : endIterationStep env.toVBEnv tol s1 with ⟨e | b, s2⟩
          · rw [hend] at hgood
            obtain ⟨a, b, c⟩ := hgood
            obtain ⟨_, hi, _⟩ := endIterationStep_error env.toVBEnv tol s1 s2 hwf1 e hend
            refine ⟨a, b, hext1.trans c, fun i h1 h2 => ?_, fun h => by cases h⟩
            change i < s2.iter at h2
            omega
          · rw [hend] at hgood
            obtain ⟨hwf2, hsm2, hext2⟩ := hgood
            obtain ⟨w, c, k, f, hcbw, hc, hk, hb, hs2⟩ :=
              endIterationStep_ok env.toVBEnv tol s1 s2 hwf1 b hend
            simp only [] at hwf2 hsm2 hext2
            have hwe : w = s1.world := by
              have := hcb s1.world
              rw [hcbw] at this
              exact this
            subst hwe
            have hLeq : L = s1.model.foldl (fun L n => FloatOps.add L (c n)) FloatOps.zero := by
              have := foldlM_ok (fun n => env.contribution n s1.world) s1.model c hc FloatOps.zero
              unfold computeLowerbound at hL
              rw [this] at hL
              injection hL with hL
              exact hL.symm
            have hi2 : s2.iter = s.iter + 1 := by rw [hs2, ← hi1]
            have hL2 : s2.L[s.iter]? = some L := by
              rw [hs2, hLeq, ← hi1]
              exact List.getElem?_set_self (by simpa using hk)
            have hm2 : s2.model = s1.model := by rw [hs2]
            have hw2 : s2.world = s1.world := by rw [hs2]
            have hLb : computeLowerbound env.toVBEnv s2 = .ok L := by
              unfold computeLowerbound at hL ⊢
              rw [hm2, hw2]; exact hL
            have hacc2 : Accepted s2.L s.iter := by
              unfold rejects at hrej
              simp only [Bool.or_eq_false_iff] at hrej
              refine ⟨L, hL2, hrej.1, fun hpos => ?_⟩
              have hprev : s2.L[s.iter - 1]? = s1.L[s.iter - 1]? :=
                hext2.L (s.iter - 1) (by omega)
              have hlen : s.iter - 1 < s1.L.length := by have := hwf1.iter_le; omega
              refine ⟨s1.L[s.iter - 1]'hlen, by rw [hprev]; exact List.getElem?_eq_getElem hlen, ?_⟩
              intro hlt
              have h2 := hrej.2
              rw [hi1, show s1.L.getD (s.iter - 1) FloatOps.nan = s1.L[s.iter - 1]'hlen by
                rw [List.getD_eq_getElem?_getD, List.getElem?_eq_getElem hlen]; rfl, hlt] at h2
              simpa [hpos] using h2
            -- now either stop or continue
            have hstop : ∀ i, s.iter ≤ i → i < s2.iter → Accepted s2.L i := by
              intro i h1 h2
              have : i = s.iter := by omega
              rw [this]; exact hacc2
            cases b with
            | true =>
              refine ⟨hwf2, hsm2, hext1.trans hext2, hstop, fun _ => ⟨?_, fun _ => ⟨L, hLb, ?_⟩,
                fun h => ?_⟩⟩
              · show s2.iter ≤ _; omega
              · show s2.L[s2.iter - 1]? = _; rw [hi2]; exact hL2
              · change s2.iter = s.iter at h; omega
            | false =>
              simp only []
              obtain ⟨a, b, c', d, e⟩ := ih pNew
                { v2 with scale := FloatOps.mul v2.scale OptOps.sqrt2 } s2 hwf2 hsm2
              refine ⟨a, b, (hext1.trans hext2).trans c', ?_, ?_⟩
              · intro i h1 h2
                by_cases hlt : i < s2.iter
                · have hii : i = s.iter := by omega
                  subst hii
                  obtain ⟨b0, hb0, hn0, hp0⟩ := hacc2
                  refine ⟨b0, by rw [c'.L _ hlt]; exact hb0, hn0, fun hpos => ?_⟩
                  obtain ⟨a0, ha0, hh⟩ := hp0 hpos
                  exact ⟨a0, by rw [c'.L _ (by omega)]; exact ha0, hh⟩
                · exact d i (by omega) h2
              · intro h
                obtain ⟨h1, h2, h3⟩ := e h
                have h4 := c'.iter
                refine ⟨by omega, fun _ => ?_, fun h => by omega⟩
                by_cases hlt : s2.iter < (optimizeLoop env keys collapsed fletcher riem tol fuel n
                    pNew { v2 with scale := FloatOps.mul v2.scale OptOps.sqrt2 } s2).2.iter
                · exact h2 hlt
                · rw [h3 (by omega)]
                  exact ⟨L, hLb, by rw [hi2]; exact hL2⟩

/-- C42, `optimize`, partial: in every execution (whatever the gradients are, whether it ends, raises
or is stopped inside the line search) every recorded step was accepted: its bound is a number, and if
it is not the first entry of the history, it is not less than the previous entry unless
`np.allclose` calls them equal.  If `optimize` ends, the nodes are left at the last accepted step.
The callback must not change nodes.  (Missing: strict monotonicity, the first step, and restoring
after exceptions, see the counterexamples below.) -/
theorem C42_optimize_partial (env : OptEnv ν V O M F P) (keys collapsed : List (NodeKey ν))
    (maxiter : Nat) (fletcher riem : Bool) (tol : Option F) (fuel : Nat) (s : VBState ν V O M F)
    (hr : VBReachable env.toVBEnv s) (hcb : ∀ w, (env.callback w).2 = w)
    (r : Except PyErr (Option Unit) × VBState ν V O M F)
    (h : r = vbOptimize env keys collapsed maxiter fletcher riem tol fuel s) :
    (∀ i, s.iter ≤ i → i < r.2.iter → ∃ b, r.2.L[i]? = some b ∧ OptOps.isNan b = false ∧
      (0 < i → ∃ a, r.2.L[i - 1]? = some a ∧
        (FloatOps.lt b a = true → OptOps.allclose b a = true))) ∧
    (r.1 = .ok (some ()) → s.iter < r.2.iter →
      ∃ b, computeLowerbound env.toVBEnv r.2 = .ok b ∧ r.2.L[r.2.iter - 1]? = some b) := by
  subst h
  unfold vbOptimize
  cases hg : getParameters env keys s with
  | error e => exact ⟨fun i h1 h2 => absurd h2 (not_lt.2 h1), fun h => by cases h⟩
  | ok p =>
    obtain ⟨_, _, _, d, e⟩ := optimizeLoop_spec env keys collapsed fletcher riem tol fuel maxiter p
      { scale := OptOps.one, ddPrev := FloatOps.zero, dir := [], isG2 := true } s hcb
      hr.wf.1 hr.wf.2
    exact ⟨d, fun h => (e h).2.1⟩

/-- C37 for `optimize`: the history before the call is kept, and sums match. -/
theorem C37_optimize (env : OptEnv ν V O M F P) (keys collapsed : List (NodeKey ν))
    (maxiter : Nat) (fletcher riem : Bool) (tol : Option F) (fuel : Nat) (s : VBState ν V O M F)
    (hr : VBReachable env.toVBEnv s) (hcb : ∀ w, (env.callback w).2 = w)
    (s' : VBState ν V O M F)
    (h : s' = (vbOptimize env keys collapsed maxiter fletcher riem tol fuel s).2) :
    s.iter ≤ s'.iter ∧ (∀ i < s.iter, s'.L[i]? = s.L[i]?) ∧
    (∀ n ∈ s.model, ∀ i < s.iter, (s'.l n)[i]? = (s.l n)[i]?) ∧
    ∀ i < s'.iter, ∃ c : ν → F, (∀ n ∈ s.model, (s'.l n)[i]? = some (c n)) ∧
      s'.L[i]? = some (s.model.foldl (fun t n => FloatOps.add t (c n)) FloatOps.zero) := by
  subst h
  unfold vbOptimize
  cases hg : getParameters env keys s with
  | error e => exact ⟨le_refl _, fun _ _ => rfl, fun _ _ _ _ => rfl, hr.wf.2⟩
  | ok p =>
    obtain ⟨_, b, c, _, _⟩ := optimizeLoop_spec env keys collapsed fletcher riem tol fuel maxiter p
      { scale := OptOps.one, ddPrev := FloatOps.zero, dir := [], isG2 := true } s hcb
      hr.wf.1 hr.wf.2
    refine ⟨c.iter, c.L, c.l, fun i hi => ?_⟩
    have := b i hi
    rw [c.model] at this
    exact this

/-! ### Pattern search -/

/-- What is needed of the scalar minimiser: it has tried step `0`, and it ends at a point it has
tried, where the cost was not larger than at any other tried point. -/
def Minimizes (opt : Minimizer F) : Prop :=
  ∀ hist x, opt hist = .inr x →
    (∃ c, (FloatOps.zero, c) ∈ hist) ∧
    ∃ c, (x, c) ∈ hist ∧ ∀ q ∈ hist, FloatOps.lt q.2 c = false

theorem runMinimizer_spec {σ : Type _} (opt : Minimizer F) (hopt : Minimizes opt)
    (cost : F → Py σ F) (s0 : σ) (Inv : σ → Prop)
    (hcost : ∀ a s, Inv s → (cost a s).1 = (cost a s0).1 ∧ Inv (cost a s).2)
    (fuel : Nat) (hist : List (F × F)) (hh : ∀ q ∈ hist, (cost q.1 s0).1 = .ok q.2)
    (s s' : σ) (hs : Inv s) (x : F)
    (h : runMinimizer opt cost fuel hist s = (.ok (some x), s')) :
    Inv s' ∧ ∃ c c0, (cost x s0).1 = .ok c ∧ (cost FloatOps.zero s0).1 = .ok c0 ∧
      FloatOps.lt c0 c = false := by
  induction fuel generalizing hist s with
  | zero => cases h
  | succ fuel ih =>
    unfold runMinimizer at h
    cases ho : opt hist with
    | inr y =>
      rw [ho] at h
      simp only [] at h
      injection h with h1 h2
      injection h1 with h1
      injection h1 with h1
      subst h1; subst h2
      obtain ⟨⟨c0, hc0⟩, c, hc, hmin⟩ := hopt hist y ho
      exact ⟨hs, c, c0, hh _ hc, hh _ hc0, hmin _ hc0⟩
    | inl a =>
      rw [ho] at h
      simp only [] at h
      obtain ⟨h1, h2⟩ := hcost a s hs
      rcases hca : cost a s with ⟨e | c, s1⟩
      · rw [hca] at h; cases h
      · rw [hca] at h h1 h2
        refine ih (hist ++ [(a, c)]) ?_ s1 h2 h
        intro q hq
        rcases List.mem_append.1 hq with hq | hq
        · exact hh q hq
        · rw [List.mem_singleton] at hq
          subst hq
          exact h1.symm

theorem mapM_length {α β : Type _} {f : α → Except PyErr β} {l : List α} {r : List β}
    (h : l.mapM f = .ok r) : r.length = l.length := by
  induction l generalizing r with
  | nil => injection h with h; subst h; rfl
  | cons a l ih =>
    rw [List.mapM_cons] at h
    cases ha : f a with
    | error e => rw [ha] at h; cases h
    | ok b =>
      rw [ha] at h
      cases hl : l.mapM f with
      | error e => rw [hl] at h; cases h
      | ok bs =>
        rw [hl] at h
        injection h with h
        subst h
        simp [ih hl]

theorem addVec_zero (env : OptEnv ν V O M F P)
    (hzero : ∀ p d, env.addScaled p d FloatOps.zero = .ok p) (p d : List P)
    (h : p.length ≤ d.length) : addVec env p d FloatOps.zero = .ok p := by
  unfold addVec
  induction p generalizing d with
  | nil => rfl
  | cons a p ih =>
    cases d with
    | nil => simp at h
    | cons b d =>
      rw [List.zip_cons_cons, List.mapM_cons, ih d (by simpa using h)]
      simp only [hzero a b]
      rfl

/-- C42, `pattern_search`, partial: without collapsed nodes, if the updates of the nodes do not
decrease the bound (C23), setting parameters overwrites them, and the minimiser returns the best of
the points it has tried, which include step `0`, then a pattern search that ends leaves a bound that
is not less than before.  (Missing: collapsed nodes; `cost` then depends on the points tried
before.) -/
theorem C42_pattern_search_partial (env : OptEnv ν V O M F P) (keys : List (NodeKey ν))
    (opt : Minimizer F) (fuel : Nat) (s s' : VBState ν V O M F)
    (hwf : VBWf s) (hcb : ∀ w, (env.callback w).2 = w)
    (hopt : Minimizes opt)
    (htrans : ∀ a b c : F, FloatOps.lt b a = false → FloatOps.lt c b = false →
      FloatOps.lt c a = false)
    (hrefl : ∀ a : F, FloatOps.lt a a = false)
    (hneg : ∀ a b : F, FloatOps.lt (OptOps.neg a) (OptOps.neg b) = FloatOps.lt b a)
    (hmono : ∀ k t t', updateOne env k t = (.ok (), t') → ∀ L L',
      computeLowerbound env.toVBEnv t = .ok L → computeLowerbound env.toVBEnv t' = .ok L' →
      FloatOps.lt L' L = false)
    (hdef : ∀ t : VBState ν V O M F, ∃ L, computeLowerbound env.toVBEnv t = .ok L)
    (hset : ∀ p q t, p.length = keys.length → q.length = keys.length →
      (setParameters env q keys (setParameters env p keys t).2).1 = (setParameters env q keys t).1 ∧
      ((setParameters env q keys t).1 = .ok () →
        (setParameters env q keys (setParameters env p keys t).2).2 = (setParameters env q keys t).2))
    (hround : ∀ t p, getParameters env keys t = .ok p → setParameters env p keys t = (.ok (), t))
    (hzero : ∀ p d, env.addScaled p d FloatOps.zero = .ok p)
    (h : patternSearch env keys [] opt fuel s = (.ok (some ()), s')) :
    s'.iter = s.iter + 1 ∧
    ∀ L L', computeLowerbound env.toVBEnv s = .ok L → computeLowerbound env.toVBEnv s' = .ok L' →
      FloatOps.lt L' L = false := by
  -- updates are monotone
  have hall : ∀ (ks : List (NodeKey ν)) t t', updateEach env ks t = (.ok (), t') → ∀ L L',
      computeLowerbound env.toVBEnv t = .ok L → computeLowerbound env.toVBEnv t' = .ok L' →
      FloatOps.lt L' L = false := by
    intro ks
    induction ks with
    | nil =>
      intro t t' h L L' h1 h2
      injection h with _ h
      subst h
      rw [h1] at h2
      injection h2 with h2
      subst h2
      exact hrefl L
    | cons k ks ih =>
      intro t t' h L L' h1 h2
      unfold updateEach at h
      rcases hk : updateOne env k t with ⟨e | _, t1⟩
      · rw [Py.bind_error hk] at h; cases h
      · rw [Py.bind_ok hk] at h
        obtain ⟨L1, hL1⟩ := hdef t1
        exact htrans _ _ _ (hmono k t t1 hk L L1 h1 hL1) (ih t1 t' h L1 L' hL1 h2)
  unfold patternSearch at h
  rcases h1 : updateEach env keys s with ⟨e | _, s1⟩
  · rw [Py.bind_error h1] at h; cases h
  rw [Py.bind_ok h1] at h
  rw [Py.bind_ok (show updateEach env [] s1 = (.ok (), s1) from rfl), Py.bind_get] at h
  cases hp0 : getParameters env keys s1 with
  | error e => rw [hp0, Py.bind_lift_error rfl] at h; cases h
  | ok p0 =>
  rw [hp0, Py.bind_lift_ok rfl] at h
  rcases h2 : updateEach env keys s1 with ⟨e | _, s2⟩
  · rw [Py.bind_error h2] at h; cases h
  rw [Py.bind_ok h2, Py.bind_get] at h
  cases hp1 : getParameters env keys s2 with
  | error e => rw [hp1, Py.bind_lift_error rfl] at h; cases h
  | ok p1 =>
  rw [hp1, Py.bind_lift_ok rfl] at h
  cases hdp : addVec env p1 p0 (OptOps.neg OptOps.one) with
  | error e => rw [hdp, Py.bind_lift_error rfl] at h; cases h
  | ok dp =>
  rw [hdp, Py.bind_lift_ok rfl] at h
  rcases h3 : runMinimizer opt (patternCost env keys [] p1 dp) fuel [] s2 with ⟨e | o, s3⟩
  · rw [Py.bind_error h3] at h; cases h
  rw [Py.bind_ok h3] at h
  cases o with
  | none => cases h
  | some x =>
  simp only [] at h
  cases hpn : addVec env p1 dp x with
  | error e => rw [hpn, Py.bind_lift_error rfl] at h; cases h
  | ok pNew =>
  rw [hpn, Py.bind_lift_ok rfl] at h
  rcases h4 : setParameters env pNew keys s3 with ⟨e | _, s4⟩
  · rw [Py.bind_error h4] at h; cases h
  rw [Py.bind_ok h4] at h
  rw [Py.bind_ok (show updateEach env [] s4 = (.ok (), s4) from rfl)] at h
  rcases h5 : endIterationStep env.toVBEnv none s4 with ⟨e | b, s5⟩
  · rw [Py.bind_error h5] at h; cases h
  rw [Py.bind_ok h5] at h
  have hs5 : s5 = s' := by injection h
  subst hs5
  -- the cost function does not depend on what was tried before
  have lp0 := mapM_length hp0
  have lp1 := mapM_length hp1
  have ldp : dp.length = keys.length := by
    have := mapM_length hdp
    rw [List.length_zip] at this
    omega
  have hcost : ∀ a t, (∀ q : List P, q.length = keys.length →
        (setParameters env q keys t).1 = (setParameters env q keys s2).1 ∧
        ((setParameters env q keys s2).1 = .ok () →
          (setParameters env q keys t).2 = (setParameters env q keys s2).2)) →
      (patternCost env keys [] p1 dp a t).1 = (patternCost env keys [] p1 dp a s2).1 ∧
      (∀ q : List P, q.length = keys.length →
        (setParameters env q keys (patternCost env keys [] p1 dp a t).2).1
          = (setParameters env q keys s2).1 ∧
        ((setParameters env q keys s2).1 = .ok () →
          (setParameters env q keys (patternCost env keys [] p1 dp a t).2).2
            = (setParameters env q keys s2).2)) := by
    intro a t ht
    cases ha : addVec env p1 dp a with
    | error e => unfold patternCost; simp only [ha]; exact ⟨trivial, ht⟩
    | ok q =>
      have hq : q.length = keys.length := by
        have := mapM_length ha
        rw [List.length_zip] at this
        omega
      obtain ⟨e1, e2⟩ := ht q hq
      -- the state after the evaluation
      have hst : ∀ t0 : VBState ν V O M F,
          (patternCost env keys [] p1 dp a t0).2 = (setParameters env q keys t0).2 := by
        intro t0
        unfold patternCost
        rw [ha]
        simp only []
        rcases setParameters env q keys t0 with ⟨e | _, t1⟩
        · rfl
        · simp only []
          rw [show updateEach env [] t1 = (.ok (), t1) from rfl]
          simp only []
          obtain ⟨L, hL⟩ := hdef t1
          rw [hL]
      refine ⟨?_, ?_⟩
      · unfold patternCost
        rw [ha]
        simp only []
        rcases hqt : setParameters env q keys t with ⟨e | _, t1⟩
        · rw [hqt] at e1
          rcases hq2 : setParameters env q keys s2 with ⟨e' | _, t2⟩
          · rfl
          · rw [hq2] at e1; cases e1
        · rw [hqt] at e1 e2
          rcases hq2 : setParameters env q keys s2 with ⟨e' | _, t2⟩
          · rw [hq2] at e1; cases e1
          · rw [hq2] at e2
            have := e2 rfl
            simp only [] at this
            subst this
            rfl
      · intro r hr
        rw [hst t]
        obtain ⟨g1, g2⟩ := hset q r t hq hr
        obtain ⟨k1, k2⟩ := ht r hr
        exact ⟨g1.trans k1, fun hok => (g2 (k1.trans hok)).trans (k2 hok)⟩
  obtain ⟨hinv, c, c0, hc, hc0, hlt⟩ := runMinimizer_spec opt hopt _ s2 _ hcost fuel []
    (by simp) s2 s3 (fun q _ => ⟨rfl, fun _ => rfl⟩) x h3
  have lpn : pNew.length = keys.length := by
    have := mapM_length hpn
    rw [List.length_zip] at this
    omega
  have hs3 : setParameters env pNew keys s2 = (.ok (), s4) := by
    obtain ⟨g1, g2⟩ := hinv pNew lpn
    rw [h4] at g1 g2
    exact Prod.ext g1.symm (g2 g1.symm).symm
  have hzero' : addVec env p1 dp FloatOps.zero = .ok p1 := addVec_zero env hzero p1 dp (by omega)
  obtain ⟨L2, hL2⟩ := hdef s2
  obtain ⟨L4, hL4⟩ := hdef s4
  have ec : c = OptOps.neg L4 := by
    unfold patternCost at hc
    rw [hpn] at hc
    simp only [hs3, show updateEach env [] s4 = (.ok (), s4) from rfl, hL4] at hc
    injection hc with hc
    exact hc.symm
  have ec0 : c0 = OptOps.neg L2 := by
    unfold patternCost at hc0
    rw [hzero'] at hc0
    simp only [hround s2 p1 hp1, show updateEach env [] s2 = (.ok (), s2) from rfl, hL2] at hc0
    injection hc0 with hc0
    exact hc0.symm
  rw [ec, ec0, hneg] at hlt
  -- the end of the step
  have fr : ∀ t t' : VBState ν V O M F, (∃ w, t' = { t with world := w }) → VBWf t → VBWf t' := by
    rintro t t' ⟨w, rfl⟩ hw
    exact ⟨hw.nodup, hw.iter_le, hw.len⟩
  have f1 := updateEach_frame env keys s
  rw [h1] at f1
  have f2 := updateEach_frame env keys s1
  rw [h2] at f2
  have f3 := setParameters_frame env pNew keys s2
  rw [hs3] at f3
  have hwf4 : VBWf s4 := fr _ _ f3 (fr _ _ f2 (fr _ _ f1 hwf))
  obtain ⟨w, cc, k, f, hcbw, hcc, hk, hb, hs5⟩ :=
    endIterationStep_ok env.toVBEnv none s4 s5 hwf4 b h5
  have hwe : w = s4.world := by
    have := hcb s4.world
    rw [hcbw] at this
    exact this
  have hit : s4.iter = s.iter := by
    obtain ⟨w1, e1⟩ := f1
    obtain ⟨w2, e2⟩ := f2
    obtain ⟨w3, e3⟩ := f3
    simp only [] at e1 e2 e3
    rw [e3, e2, e1]
  refine ⟨by rw [hs5, ← hit], fun L L' hL hL' => ?_⟩
  have : computeLowerbound env.toVBEnv s5 = computeLowerbound env.toVBEnv s4 := by
    unfold computeLowerbound
    rw [show s5.model = s4.model by rw [hs5], show s5.world = s4.world by rw [hs5, hwe]]
  rw [this, hL4] at hL'
  injection hL' with hL'
  subst hL'
  obtain ⟨L1, hL1⟩ := hdef s1
  exact htrans _ _ _ (htrans _ _ _ (hall keys s s1 h1 L L1 hL hL1) (hall keys s1 s2 h2 L1 L2 hL1 hL2))
    hlt

end

/-! ### Concrete instances and counterexamples -/

/-- Exact rational arithmetic. -/
instance ratOps : OptOps ℚ where
  zero := 0
  nan := -1
  half := 1 / 2
  add := (· + ·)
  sub := (· - ·)
  mul := (· * ·)
  div := (· / ·)
  abs := fun a => |a|
  lt := fun a b => decide (a < b)
  one := 1
  neg := fun a => -a
  inf := 10 ^ 9
  sqrt2 := 1414 / 1000
  threshold := 1 / 1024
  isNan := fun _ => false
  isZero := fun a => decide (a = 0)
  allclose := fun a b => decide (|a - b| ≤ 1 / 10 ^ 8 + 1 / 10 ^ 8 * |b|)

/-- One node with parameter `x` and the bound `c - x^2`; its Riemannian gradient is four times too
long.  If `low` is given, the bound cannot be computed for `x < low`. -/
def quadEnv (c : ℚ) (low : Option ℚ) : OptEnv Nat ℚ Bool Bool ℚ ℚ where
  name := fun _ => "x"
  hasUpdate := fun _ => true
  savable := fun _ => true
  update := fun n w => (.ok (), Function.update w n { w n with data := (w n).data / 2 })
  contribution := fun n w => if low.any (fun l => decide ((w n).data < l)) then .error .valueError
    else .ok (c - (w n).data ^ 2)
  callback := fun w => (.ok (), w)
  maskOf := fun o n => o n
  getParameters := fun n w => (w n).data
  setParameters := fun n p w => (.ok (), Function.update w n { w n with data := p })
  riemannian := fun n w => .ok (-8 * (w n).data)
  gradient := fun n _ w => .ok (-2 * (w n).data)
  addScaled := fun p d a => .ok (p + a * d)
  dot := fun a b => .ok (a * b)

def quadState (x : ℚ) : VBState Nat ℚ Bool Bool ℚ :=
  { model := [0], world := fun _ => ⟨x, false, false, 1⟩, iter := 0, annealingChanged := false,
    converged := false, ignoreBoundChecks := false, L := [], l := fun _ => [], tol := -1,
    autosaveIterations := 0, autosaveNodes := none, file := none }

/-- C42, refuted for the first step: at iteration 0 there is no recorded bound to compare with, and
any finite bound is accepted. -/
theorem C42_first_step_counterexample :
    let env := quadEnv 0 none
    let s := quadState 1
    let r := vbOptimize env [.node 0] [] 1 false true none 10 s
    r.1 = .ok (some ()) ∧ computeLowerbound env.toVBEnv s = .ok (-1) ∧
      computeLowerbound env.toVBEnv r.2 = .ok (-49) := by
  decide +kernel

/-- From the second iteration on the too long steps are halved until the bound does not decrease. -/
example :
    let env := quadEnv 0 none
    let s := (vbUpdate env.toVBEnv [] 1 none (quadState 2)).2
    let r := vbOptimize env [.node 0] [] 2 false true none 10 s
    r.1 = .ok (some ()) ∧ r.2.iter = 3 ∧ r.2.L.take 2 = [-1, -1] ∧
      (r.2.L.drop 2).take 1 = [-(171396 / 10 ^ 6 : ℚ)] := by
  decide +kernel

/-- C42, refuted: a decrease of the bound is accepted when `np.allclose` calls the bounds equal. -/
theorem C42_decrease_counterexample :
    let env := quadEnv (10 ^ 9) none
    let s := (vbUpdate env.toVBEnv [] 1 none (quadState (1 / 2))).2
    let r := vbOptimize env [.node 0] [] 1 false true none 10 s
    r.1 = .ok (some ()) ∧ s.iter = 1 ∧
      computeLowerbound env.toVBEnv s = .ok (10 ^ 9 - 1 / 16) ∧
      computeLowerbound env.toVBEnv r.2 = .ok (10 ^ 9 - 49 / 16) := by
  decide +kernel

/-- C42, refuted: if the bound of a tried point cannot be computed, `optimize` raises and leaves the
node at that point. -/
theorem C42_not_reset_counterexample :
    let env := quadEnv 0 (some (-3))
    let s := (vbUpdate env.toVBEnv [] 1 none (quadState 2)).2
    let r := vbOptimize env [.node 0] [] 1 false true none 10 s
    (s.world 0).data = 1 ∧ r.1 = .error .valueError ∧ (r.2.world 0).data = -7 := by
  decide +kernel

/-- A minimiser that tries 0 and 3 and returns the better one. -/
def twoPoints : Minimizer ℚ := fun hist => match hist with
  | [] => .inl 0
  | [_] => .inl 3
  | (a, c) :: (b, d) :: _ => if hist.any (fun q => decide (q.2 < c)) = false ∧ a = 0 then .inr a
      else if hist.any (fun q => decide (q.2 < d)) = false ∧ a = 0 then .inr b else .inl 0

theorem twoPoints_minimizes : Minimizes twoPoints := by
  intro hist x h
  unfold twoPoints at h
  split at h
  · cases h
  · cases h
  · rename_i a c b d l
    split at h
    · rename_i hh
      injection h with h
      subst h
      refine ⟨⟨c, by rw [hh.2]; simp [FloatOps.zero]⟩, c, by simp, fun q hq => ?_⟩
      have := hh.1
      rw [List.any_eq_false] at this
      exact Bool.eq_false_of_not_eq_true (this q hq)
    · split at h
      · rename_i hh
        injection h with h
        subst h
        refine ⟨⟨c, by rw [hh.2]; simp [FloatOps.zero]⟩, d, by simp, fun q hq => ?_⟩
        have := hh.1
        rw [List.any_eq_false] at this
        exact Bool.eq_false_of_not_eq_true (this q hq)
      · cases h

/-- A pattern search: the updates halve `x` (8 to 4 to 2), then three times the last step is tried
(-4) and rejected. -/
example :
    let env := quadEnv 0 none
    let r := patternSearch env [.node 0] [] twoPoints 10 (quadState 8)
    r.1 = .ok (some ()) ∧ r.2.iter = 1 ∧ (r.2.world 0).data = 2 := by
  decide +kernel

theorem quad_bound (c : ℚ) (t : VBState Nat ℚ Bool Bool ℚ) :
    computeLowerbound (quadEnv c none).toVBEnv t
      = .ok (t.model.foldl (fun L n => L + (c - (t.world n).data ^ 2)) 0) :=
  foldlM_ok (fun n => (quadEnv c none).contribution n t.world) t.model
    (fun n => c - (t.world n).data ^ 2) (fun n _ => rfl) 0

/-- The hypotheses of `C42_pattern_search_partial` hold for the small model. -/
example (s' : VBState Nat ℚ Bool Bool ℚ) (fuel : Nat)
    (h : patternSearch (quadEnv 0 none) [.node 0] [] twoPoints fuel (quadState 8)
      = (.ok (some ()), s')) :
    ∀ L L', computeLowerbound (quadEnv 0 none).toVBEnv (quadState 8) = .ok L →
      computeLowerbound (quadEnv 0 none).toVBEnv s' = .ok L' → FloatOps.lt L' L = false := by
  refine (C42_pattern_search_partial (quadEnv 0 none) [.node 0] twoPoints fuel (quadState 8) s'
    ⟨by decide, by decide, by intro n _; rfl⟩ (fun _ => rfl) twoPoints_minimizes ?_ ?_ ?_ ?_
    (fun t => ⟨_, quad_bound 0 t⟩) ?_ ?_ ?_ h).2
  · intro a b c h1 h2
    simp only [FloatOps.lt, decide_eq_false_iff_not, not_lt] at h1 h2 ⊢
    exact le_trans h1 h2
  · intro a; simp [FloatOps.lt]
  · intro a b; simp [FloatOps.lt, OptOps.neg]
  · intro k t t' hu L L' hL hL'
    rw [quad_bound] at hL hL'
    injection hL with hL
    injection hL' with hL'
    unfold updateOne at hu
    cases hk : vbGetitem (quadEnv 0 none).toVBEnv t.model k with
    | error e => rw [hk] at hu; cases hu
    | ok n =>
      rw [hk] at hu
      have : t' = { t with
          world := Function.update t.world n { t.world n with data := (t.world n).data / 2 } } := by
        injection hu with _ hu; exact hu.symm
      subst this
      simp only [FloatOps.lt, decide_eq_false_iff_not, not_lt]
      rw [← hL, ← hL']
      have key : ∀ (ms : List Nat) (a b : ℚ), a ≤ b →
          ms.foldl (fun L m => L + (0 - (t.world m).data ^ 2)) a ≤
          ms.foldl (fun L m => L + (0 - ((Function.update t.world n
            { t.world n with data := (t.world n).data / 2 }) m).data ^ 2)) b := by
        intro ms
        induction ms with
        | nil => intro a b h; exact h
        | cons m ms ih =>
          intro a b hab
          apply ih
          by_cases hm : m = n
          · subst hm
            simp only [Function.update_self]
            have := sq_nonneg (t.world m).data
            linarith [show ((t.world m).data / 2) ^ 2 = (t.world m).data ^ 2 / 4 by ring]
          · simp only [Function.update_of_ne hm]; linarith
      exact key t.model 0 0 (le_refl 0)
  · intro p q t hp hq
    match p, q, hp, hq with
    | [p], [q], _, _ =>
      have e : ∀ (r : ℚ) (t : VBState Nat ℚ Bool Bool ℚ),
          setParameters (quadEnv 0 none) [r] [.node 0] t = setNode (quadEnv 0 none) (.node 0) r t := by
        intro r t
        unfold setParameters
        rcases h : setNode (quadEnv 0 none) (.node 0) r t with ⟨e | _, t1⟩
        · rw [Py.bind_error h]
        · rw [Py.bind_ok h]; rfl
      simp only [e]
      unfold setNode
      by_cases hm : (0 : Nat) ∈ t.model
      · simp only [vbGetitem, hm, if_true, quadEnv]
        simp
      · simp only [vbGetitem, hm, if_false]
        simp
  · intro t p hp
    by_cases hm : (0 : Nat) ∈ t.model
    · have hp' : p = [(t.world 0).data] := by
        have : getParameters (quadEnv 0 none) [.node 0] t = .ok [(t.world 0).data] := by
          simp only [getParameters, List.mapM_cons, List.mapM_nil, vbGetitem, hm, if_true]
          rfl
        rw [this] at hp
        injection hp with hp
        exact hp.symm
      subst hp'
      unfold setParameters
      have : setNode (quadEnv 0 none) (.node 0) (t.world 0).data t = (.ok (), t) := by
        simp only [setNode, vbGetitem, hm, if_true, quadEnv]
        rw [show Function.update t.world 0 { t.world 0 with data := (t.world 0).data } = t.world from
          Function.update_eq_self 0 t.world]
      rw [Py.bind_ok this]
      rfl
    · have : getParameters (quadEnv 0 none) [.node 0] t = .error .keyError := by
        simp only [getParameters, List.mapM_cons, List.mapM_nil, vbGetitem, hm, if_false]
        rfl
      rw [this] at hp; cases hp
  · intro p d; simp [quadEnv, FloatOps.zero]

end Verif
