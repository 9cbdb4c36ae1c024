import Mathlib.Data.List.Nodup
import Mathlib.Data.List.Perm.Subperm
import Mathlib.Tactic.Tauto
import Verif.Spec.Converter

/-! # C35: the search for converters -/

namespace Verif

open Spec (Sub Step Chain ClassWf)

variable {α κ : Type _} [DecidableEq α]

omit [DecidableEq α] in
theorem Spec.Sub.trans {bases : α → List α} {a b c : α} (h : Sub bases a b) (h' : Sub bases b c) :
    Sub bases a c := by
  induction h with
  | refl => exact h'
  | step m _ ih => exact .step m (ih h')

/-! ### The parts of one iteration -/

theorem addBases_spec (env : ClassEnv α κ) (path : List κ) (bs visited : List α)
    (cur : List (α × List κ)) :
    let r := addBases env path bs visited cur
    (∀ x, x ∈ r.1 ↔ x ∈ visited ∨ (x ∈ bs ∧ env.issub x env.moments = true)) ∧
    (∀ x, x ∈ r.1 → x ∈ visited ∨ (x, path) ∈ r.2) ∧
    (∀ e, e ∈ r.2 → e ∈ cur ∨ (e.1 ∈ bs ∧ env.issub e.1 env.moments = true ∧ e.2 = path)) ∧
    (∀ e, e ∈ cur → e ∈ r.2) ∧
    (visited.Nodup → r.1.Nodup) := by
  induction bs generalizing visited cur with
  | nil => simp +contextual [addBases]
  | cons b bs ih =>
    unfold addBases
    by_cases h : env.issub b env.moments = true ∧ b ∉ visited
    · rw [if_pos h]
      obtain ⟨h1, h2, h3, h4, h5⟩ := ih (b :: visited) (cur ++ [(b, path)])
      refine ⟨?_, ?_, ?_, ?_, ?_⟩
      · intro x
        rw [h1, List.mem_cons, List.mem_cons]
        constructor
        · rintro ((rfl | h') | ⟨h', h''⟩)
          · exact Or.inr ⟨Or.inl rfl, h.1⟩
          · exact Or.inl h'
          · exact Or.inr ⟨Or.inr h', h''⟩
        · rintro (h' | ⟨rfl | h', h''⟩)
          · exact Or.inl (Or.inr h')
          · exact Or.inl (Or.inl rfl)
          · exact Or.inr ⟨h', h''⟩
      · intro x hx
        rcases h2 x hx with h' | h'
        · rcases List.mem_cons.1 h' with rfl | h'
          · exact Or.inr (h4 _ (by simp))
          · exact Or.inl h'
        · exact Or.inr h'
      · intro e he
        rcases h3 e he with h' | ⟨h', h''⟩
        · rcases List.mem_append.1 h' with h' | h'
          · exact Or.inl h'
          · rw [List.mem_singleton] at h'
            subst h'
            exact Or.inr ⟨by simp, h.1, rfl⟩
        · exact Or.inr ⟨List.mem_cons_of_mem _ h', h''⟩
      · intro e he
        exact h4 e (List.mem_append_left _ he)
      · intro hn
        exact h5 (List.nodup_cons.2 ⟨h.2, hn⟩)
    · rw [if_neg h]
      obtain ⟨h1, h2, h3, h4, h5⟩ := ih visited cur
      refine ⟨?_, h2, ?_, h4, h5⟩
      · intro x
        rw [h1, List.mem_cons]
        constructor
        · rintro (h' | ⟨h', h''⟩)
          · exact Or.inl h'
          · exact Or.inr ⟨Or.inr h', h''⟩
        · rintro (h' | ⟨rfl | h', h''⟩)
          · exact Or.inl h'
          · left; by_contra hv; exact h ⟨h'', hv⟩
          · exact Or.inr ⟨h', h''⟩
      · intro e he
        rcases h3 e he with h' | ⟨h', h''⟩
        · exact Or.inl h'
        · exact Or.inr ⟨List.mem_cons_of_mem _ h', h''⟩

theorem levelUp_inl (env : ClassEnv α κ) (target : α) (L : List (α × List κ)) (visited : List α)
    (cur : List (α × List κ)) (path : List κ) (h : levelUp env target L visited cur = .inl path) :
    ∃ c, (c, path) ∈ L ∧ env.issub c target = true := by
  induction L generalizing visited cur with
  | nil => cases h
  | cons e L ih =>
    obtain ⟨c, p⟩ := e
    unfold levelUp at h
    by_cases hc : env.issub c target = true
    · rw [if_pos hc] at h
      obtain rfl := Sum.inl.inj h
      exact ⟨c, by simp, hc⟩
    · rw [if_neg hc] at h
      obtain ⟨c', h1, h2⟩ := ih _ _ h
      exact ⟨c', List.mem_cons_of_mem _ h1, h2⟩

theorem levelUp_inr (env : ClassEnv α κ) (target : α) (L : List (α × List κ)) (visited : List α)
    (cur : List (α × List κ)) (v' : List α) (cur' : List (α × List κ))
    (h : levelUp env target L visited cur = .inr (v', cur')) :
    (∀ e ∈ L, env.issub e.1 target = false) ∧
    (∀ x, x ∈ v' ↔ x ∈ visited ∨
      ∃ e ∈ L, x ∈ env.bases e.1 ∧ env.issub x env.moments = true) ∧
    (∀ x, x ∈ v' → x ∈ visited ∨ ∃ p, (x, p) ∈ cur') ∧
    (∀ e, e ∈ cur' → e ∈ cur ∨ ∃ f ∈ L, e.2 = f.2 ∧ (e.1 = f.1 ∨
      (e.1 ∈ env.bases f.1 ∧ env.issub e.1 env.moments = true))) ∧
    (∀ e, e ∈ cur → e ∈ cur') ∧ (∀ e, e ∈ L → e ∈ cur') ∧
    (visited.Nodup → v'.Nodup) := by
  induction L generalizing visited cur with
  | nil =>
    obtain ⟨rfl, rfl⟩ := Prod.mk.inj (Sum.inr.inj h)
    simp only [List.not_mem_nil, false_and, exists_false, or_false]
    exact ⟨by simp, by simp, fun x h => Or.inl h, by simp, by simp, by simp, id⟩
  | cons e L ih =>
    obtain ⟨c, p⟩ := e
    unfold levelUp at h
    by_cases hc : env.issub c target = true
    · rw [if_pos hc] at h; cases h
    · rw [if_neg hc] at h
      obtain ⟨b1, b2, b3, b4, b5⟩ := addBases_spec env p (env.bases c) visited (cur ++ [(c, p)])
      obtain ⟨h1, h2, h3, h4, h5, h6, h7⟩ := ih _ _ h
      refine ⟨?_, ?_, ?_, ?_, ?_, ?_, fun hn => h7 (b5 hn)⟩
      · intro e he
        rcases List.mem_cons.1 he with rfl | he
        · simpa using hc
        · exact h1 e he
      · intro x
        rw [h2, b1]
        simp only [List.mem_cons, exists_eq_or_imp]
        tauto
      · intro x hx
        rcases h3 x hx with h' | h'
        · rcases b2 x h' with h' | h'
          · exact Or.inl h'
          · exact Or.inr ⟨p, h5 _ h'⟩
        · exact Or.inr h'
      · intro e he
        rcases h4 e he with h' | ⟨f, hf, h'⟩
        · rcases b3 e h' with h' | ⟨h', h'', h'''⟩
          · rcases List.mem_append.1 h' with h' | h'
            · exact Or.inl h'
            · rw [List.mem_singleton] at h'
              subst h'
              exact Or.inr ⟨(c, p), by simp, rfl, Or.inl rfl⟩
          · exact Or.inr ⟨(c, p), by simp, h''', Or.inr ⟨h', h''⟩⟩
        · exact Or.inr ⟨f, List.mem_cons_of_mem _ hf, h'⟩
      · intro e he
        exact h5 e (b4 e (List.mem_append_left _ he))
      · intro e he
        rcases List.mem_cons.1 he with rfl | he
        · exact h5 _ (b4 _ (by simp))
        · exact h6 e he

theorem addConvs_spec (path : List κ) (cs : List (α × κ)) (visited : List α)
    (out : List (α × List κ)) :
    let r := addConvs path cs visited out
    (∀ x, x ∈ r.1 ↔ x ∈ visited ∨ ∃ k, (x, k) ∈ cs) ∧
    (∀ x, x ∈ r.1 → x ∈ visited ∨ ∃ p, (x, p) ∈ r.2) ∧
    (∀ e, e ∈ r.2 → e ∈ out ∨ ∃ k, (e.1, k) ∈ cs ∧ e.2 = path ++ [k]) ∧
    (∀ e, e ∈ out → e ∈ r.2) ∧
    (visited.Nodup → r.1.Nodup) ∧
    r.1.length + out.length = visited.length + r.2.length := by
  induction cs generalizing visited out with
  | nil => simp +contextual [addConvs]
  | cons c cs ih =>
    obtain ⟨d, k⟩ := c
    unfold addConvs
    by_cases h : d ∉ visited
    · rw [if_pos h]
      obtain ⟨h1, h2, h3, h4, h5, h6⟩ := ih (d :: visited) (out ++ [(d, path ++ [k])])
      refine ⟨?_, ?_, ?_, ?_, ?_, ?_⟩
      · intro x
        rw [h1, List.mem_cons]
        constructor
        · rintro ((rfl | h') | ⟨k', h'⟩)
          · exact Or.inr ⟨k, by simp⟩
          · exact Or.inl h'
          · exact Or.inr ⟨k', List.mem_cons_of_mem _ h'⟩
        · rintro (h' | ⟨k', h'⟩)
          · exact Or.inl (Or.inr h')
          · rcases List.mem_cons.1 h' with h' | h'
            · exact Or.inl (Or.inl (Prod.mk.inj h').1)
            · exact Or.inr ⟨k', h'⟩
      · intro x hx
        rcases h2 x hx with h' | h'
        · rcases List.mem_cons.1 h' with rfl | h'
          · exact Or.inr ⟨path ++ [k], h4 _ (by simp)⟩
          · exact Or.inl h'
        · exact Or.inr h'
      · intro e he
        rcases h3 e he with h' | ⟨k', h', h''⟩
        · rcases List.mem_append.1 h' with h' | h'
          · exact Or.inl h'
          · rw [List.mem_singleton] at h'
            subst h'
            exact Or.inr ⟨k, by simp, rfl⟩
        · exact Or.inr ⟨k', List.mem_cons_of_mem _ h', h''⟩
      · intro e he
        exact h4 e (List.mem_append_left _ he)
      · intro hn
        exact h5 (List.nodup_cons.2 ⟨h, hn⟩)
      · simp only [List.length_cons, List.length_append, List.length_nil] at h6 ⊢
        omega
    · rw [if_neg h]
      obtain ⟨h1, h2, h3, h4, h5, h6⟩ := ih visited out
      refine ⟨?_, h2, ?_, h4, h5, h6⟩
      · intro x
        rw [h1]
        constructor
        · rintro (h' | ⟨k', h'⟩)
          · exact Or.inl h'
          · exact Or.inr ⟨k', List.mem_cons_of_mem _ h'⟩
        · rintro (h' | ⟨k', h'⟩)
          · exact Or.inl h'
          · rcases List.mem_cons.1 h' with h' | h'
            · rw [(Prod.mk.inj h').1]; exact Or.inl (not_not.1 h)
            · exact Or.inr ⟨k', h'⟩
      · intro e he
        rcases h3 e he with h' | ⟨k', h', h''⟩
        · exact Or.inl h'
        · exact Or.inr ⟨k', List.mem_cons_of_mem _ h', h''⟩

theorem convertAll_spec (env : ClassEnv α κ) (cur : List (α × List κ)) (visited : List α)
    (out : List (α × List κ)) :
    let r := convertAll env cur visited out
    (∀ x, x ∈ r.1 ↔ x ∈ visited ∨ ∃ e ∈ cur, ∃ k, (x, k) ∈ env.convs e.1) ∧
    (∀ x, x ∈ r.1 → x ∈ visited ∨ ∃ p, (x, p) ∈ r.2) ∧
    (∀ e, e ∈ r.2 → e ∈ out ∨
      ∃ f ∈ cur, ∃ k, (e.1, k) ∈ env.convs f.1 ∧ e.2 = f.2 ++ [k]) ∧
    (∀ e, e ∈ out → e ∈ r.2) ∧
    (visited.Nodup → r.1.Nodup) ∧
    r.1.length + out.length = visited.length + r.2.length := by
  induction cur generalizing visited out with
  | nil => simp +contextual [convertAll]
  | cons c cur ih =>
    obtain ⟨c, p⟩ := c
    unfold convertAll
    obtain ⟨a1, a2, a3, a4, a5, a6⟩ := addConvs_spec p (env.convs c) visited out
    obtain ⟨h1, h2, h3, h4, h5, h6⟩ := ih (addConvs p (env.convs c) visited out).1
      (addConvs p (env.convs c) visited out).2
    refine ⟨?_, ?_, ?_, fun e he => h4 e (a4 e he), fun hn => h5 (a5 hn), by simp only []; omega⟩
    · intro x
      simp only []
      rw [h1, a1]
      simp only [List.mem_cons, exists_eq_or_imp]
      tauto
    · intro x hx
      rcases h2 x hx with h' | h'
      · rcases a2 x h' with h' | ⟨p', h'⟩
        · exact Or.inl h'
        · exact Or.inr ⟨p', h4 _ h'⟩
      · exact Or.inr h'
    · intro e he
      rcases h3 e he with h' | ⟨f, hf, h'⟩
      · rcases a3 e h' with h' | ⟨k, h', h''⟩
        · exact Or.inl h'
        · exact Or.inr ⟨(c, p), by simp, k, h', h''⟩
      · exact Or.inr ⟨f, List.mem_cons_of_mem _ hf, h'⟩

/-! ### Soundness -/

theorem converterLoop_sound (env : ClassEnv α κ) (classes : List α) (wf : ClassWf env classes)
    (source target : α) (fuel : Nat) (L : List (α × List κ)) (v : List α) (path : List κ)
    (hL : ∀ e ∈ L, Chain env source e.2 e.1 ∧ Sub env.bases e.1 env.moments)
    (h : converterLoop env target fuel L v = some (.ok path)) :
    ∃ c, Chain env source path c ∧ Sub env.bases c target := by
  induction fuel generalizing L v with
  | zero => cases h
  | succ fuel ih =>
    unfold converterLoop at h
    split at h
    · rcases e : levelUp env target L v [] with p | ⟨v', cur⟩
      · rw [e] at h
        obtain rfl := Except.ok.inj (Option.some.inj h)
        obtain ⟨c, hc, hs⟩ := levelUp_inl env target L v [] p e
        exact ⟨c, (hL _ hc).1, (wf.issub _ _).1 hs⟩
      · rw [e] at h
        refine ih _ _ ?_ h
        obtain ⟨_, _, _, h4, _⟩ := levelUp_inr env target L v [] v' cur e
        intro d hd
        rcases (convertAll_spec env cur v' []).2.2.1 d hd with hd | ⟨f, hf, k, hk, hp⟩
        · simp at hd
        · refine ⟨?_, wf.targets _ _ _ hk⟩
          rw [hp]
          rcases h4 f hf with hf | ⟨l, hl, hl2, hl1⟩
          · simp at hf
          · obtain ⟨hch, hm⟩ := hL l hl
            refine .snoc (hl2 ▸ hch) ⟨f.1, ?_, ?_, hk⟩
            · rcases hl1 with h | ⟨h, _⟩
              · rw [h]; exact .refl
              · exact .step h .refl
            · rcases hl1 with h | ⟨_, h⟩
              · rw [h]; exact hm
              · exact (wf.issub _ _).1 h
    · cases h

/-- **C35** (soundness) What `get_converter` returns is a chain of registered converters leading from
the class to a subclass of the target. -/
theorem C35_sound (env : ClassEnv α κ) (classes : List α) (wf : ClassWf env classes)
    (source target : α) (hs : Sub env.bases source env.moments) (fuel : Nat) (path : List κ)
    (h : getConverter env source target fuel = some (.ok path)) :
    ∃ c, Chain env source path c ∧ Sub env.bases c target := by
  unfold getConverter at h
  by_cases hc : env.issub source target = true
  · rw [if_pos hc] at h
    obtain rfl := Except.ok.inj (Option.some.inj h)
    exact ⟨source, .nil, (wf.issub _ _).1 hc⟩
  · rw [if_neg hc] at h
    refine converterLoop_sound env classes wf source target fuel _ _ path ?_ h
    intro e he
    rw [List.mem_singleton] at he
    subst he
    exact ⟨.nil, hs⟩

/-! ### Termination -/

theorem converterLoop_terminates (env : ClassEnv α κ) (classes : List α) (wf : ClassWf env classes)
    (target : α) (fuel : Nat) (L : List (α × List κ)) (v : List α)
    (hL : ∀ e ∈ L, e.1 ∈ classes) (hv : ∀ x ∈ v, x ∈ classes) (hn : v.Nodup)
    (hf : classes.length + 2 ≤ v.length + fuel) : converterLoop env target fuel L v ≠ none := by
  induction fuel generalizing L v with
  | zero =>
    have := (hn.subperm (fun x hx => hv x hx)).length_le
    omega
  | succ fuel ih =>
    unfold converterLoop
    split
    · rcases e : levelUp env target L v [] with p | ⟨v', cur⟩
      · simp
      · simp only []
        obtain ⟨_, h2, _, h4, _, _, h7⟩ := levelUp_inr env target L v [] v' cur e
        obtain ⟨c1, _, c3, _, c5, c6⟩ := convertAll_spec env cur v' []
        have hcur : ∀ e ∈ cur, e.1 ∈ classes := by
          intro e he
          rcases h4 e he with he | ⟨f, hf, _, h | ⟨h, _⟩⟩
          · simp at he
          · rw [h]; exact hL f hf
          · exact wf.bases _ (hL f hf) _ h
        have hv' : ∀ x ∈ v', x ∈ classes := by
          intro x hx
          rcases (h2 x).1 hx with hx | ⟨f, hf, h, _⟩
          · exact hv x hx
          · exact wf.bases _ (hL f hf) _ h
        have hv'' : ∀ x ∈ (convertAll env cur v' []).1, x ∈ classes := by
          intro x hx
          rcases (c1 x).1 hx with hx | ⟨f, hf, k, hk⟩
          · exact hv' x hx
          · exact wf.convs _ (hcur f hf) _ _ hk
        have hlen : v.length ≤ v'.length :=
          (hn.subperm (fun x hx => (h2 x).2 (Or.inl hx))).length_le
        simp only [List.length_nil, Nat.add_zero] at c6
        by_cases hnil : (convertAll env cur v' []).2 = []
        · cases fuel with
          | zero =>
            have := (hn.subperm (fun x hx => hv x hx)).length_le
            omega
          | succ fuel => unfold converterLoop; rw [hnil]; simp
        · have : 0 < (convertAll env cur v' []).2.length := List.length_pos_of_ne_nil hnil
          refine ih _ _ ?_ hv'' (c5 (h7 hn)) (by omega)
          intro d hd
          rcases c3 d hd with hd | ⟨f, hf, k, hk, _⟩
          · simp at hd
          · exact wf.convs _ (hcur f hf) _ _ hk
    · simp

/-- **C35** (termination) The search ends within as many iterations as there are classes, plus one, for
all converter graphs, cyclic or not. -/
theorem C35_terminates (env : ClassEnv α κ) (classes : List α) (wf : ClassWf env classes)
    (source target : α) (hs : source ∈ classes) :
    getConverter env source target (classes.length + 1) ≠ none := by
  unfold getConverter
  split
  · simp
  · refine converterLoop_terminates env classes wf target _ _ _ (by simpa using hs) (by simpa using hs)
      (by simp) ?_
    simp only [List.length_singleton]
    omega

/-! ### Completeness and minimality -/

/-- All converters of the classes a class inherits from are visible in the class itself or in one of
its direct bases. -/
def Visible (env : ClassEnv α κ) : Prop :=
  ∀ c b d k, Sub env.bases c b → Sub env.bases b env.moments → (d, k) ∈ env.convs b →
    ∃ b' k', (b' = c ∨ b' ∈ env.bases c) ∧ Sub env.bases b' env.moments ∧ (d, k') ∈ env.convs b'

theorem converterLoop_complete (env : ClassEnv α κ) (classes : List α) (wf : ClassWf env classes)
    (hvis : Visible env) (source target : α) (fuel n : Nat) (L : List (α × List κ)) (v : List α)
    (hS : source ∈ v)
    (hL : ∀ e ∈ L, e.2.length = n)
    (hLv : ∀ e ∈ L, e.1 ∈ v)
    (hv : ∀ x ∈ v, (∃ p, (x, p) ∈ L) ∨ ((∀ k y, Step env x k y → y ∈ v) ∧ ¬ Sub env.bases x target))
    (hmin : ∀ p c, Chain env source p c → p.length < n →
      (∀ k y, Step env c k y → y ∈ v) ∧ ¬ Sub env.bases c target) :
    (∀ path, converterLoop env target fuel L v = some (.ok path) →
      ∀ p c, Chain env source p c → Sub env.bases c target → path.length ≤ p.length) ∧
    (∀ e, converterLoop env target fuel L v = some (.error e) →
      e = .noConverter ∧ ∀ p c, Chain env source p c → ¬ Sub env.bases c target) := by
  induction fuel generalizing n L v with
  | zero => exact ⟨fun _ h => (by cases h), fun _ h => (by cases h)⟩
  | succ fuel ih =>
    unfold converterLoop
    by_cases hl : L.length > 0
    · rw [if_pos hl]
      rcases e : levelUp env target L v [] with q | ⟨v', cur⟩
      · refine ⟨?_, fun _ h => by cases h⟩
        intro path h p c hc ht
        obtain rfl := Except.ok.inj (Option.some.inj h)
        obtain ⟨d, hd, _⟩ := levelUp_inl env target L v [] q e
        have := hL _ hd
        simp only [] at this
        rw [this]
        by_contra hlt
        exact (hmin p c hc (by omega)).2 ht
      · obtain ⟨h1, h2, h3, h4, _, h6, _⟩ := levelUp_inr env target L v [] v' cur e
        obtain ⟨c1, c2, c3, _, _, _⟩ := convertAll_spec env cur v' []
        have hvv : ∀ x ∈ v, x ∈ (convertAll env cur v' []).1 :=
          fun x hx => (c1 x).2 (Or.inl ((h2 x).2 (Or.inl hx)))
        have hcurc : ∀ e ∈ cur, ∀ k y, (y, k) ∈ env.convs e.1 → y ∈ (convertAll env cur v' []).1 :=
          fun e he k y hk => (c1 y).2 (Or.inr ⟨e, he, k, hk⟩)
        -- all classes of this level are done
        have hLdone : ∀ f ∈ L, (∀ k y, Step env f.1 k y → y ∈ (convertAll env cur v' []).1) ∧
            ¬ Sub env.bases f.1 target := by
          intro f hf
          refine ⟨?_, ?_⟩
          · rintro k y ⟨b, hb1, hb2, hb3⟩
            obtain ⟨b', k', hb', hm, hk'⟩ := hvis _ _ _ _ hb1 hb2 hb3
            rcases hb' with rfl | hb'
            · exact hcurc f (h6 f hf) k' y hk'
            · have hbv : b' ∈ v' := (h2 b').2 (Or.inr ⟨f, hf, hb', (wf.issub _ _).2 hm⟩)
              rcases h3 b' hbv with hbv | ⟨p, hp⟩
              · rcases hv b' hbv with ⟨p, hp⟩ | ⟨hd, _⟩
                · exact hcurc _ (h6 _ hp) k' y hk'
                · exact hvv y (hd k' y ⟨b', .refl, hm, hk'⟩)
              · exact hcurc _ hp k' y hk'
          · intro hsub
            have := (wf.issub _ _).2 hsub
            rw [h1 f hf] at this
            cases this
        have hvdone : ∀ x ∈ v, (∀ k y, Step env x k y → y ∈ (convertAll env cur v' []).1) ∧
            ¬ Sub env.bases x target := by
          intro x hx
          rcases hv x hx with ⟨p, hp⟩ | ⟨hd, ht⟩
          · exact hLdone _ hp
          · exact ⟨fun k y hs => hvv y (hd k y hs), ht⟩
        have hmin' : ∀ p c, Chain env source p c → p.length < n + 1 →
            (∀ k y, Step env c k y → y ∈ (convertAll env cur v' []).1) ∧
              ¬ Sub env.bases c target := by
          intro p c hc hlt
          by_cases hn : p.length < n
          · obtain ⟨hd, ht⟩ := hmin p c hc hn
            exact ⟨fun k y hs => hvv y (hd k y hs), ht⟩
          · refine hvdone c ?_
            cases hc with
            | nil => exact hS
            | snoc hc' hst =>
              simp only [List.length_append, List.length_singleton] at hlt
              exact (hmin _ _ hc' (by omega)).1 _ _ hst
        refine ih (n + 1) _ _ (hvv _ hS) ?_ ?_ ?_ hmin'
        · intro d hd
          rcases c3 d hd with hd | ⟨f, hf, k, _, hp⟩
          · simp at hd
          · rw [hp]
            rcases h4 f hf with hf | ⟨l, hl, hl2, _⟩
            · simp at hf
            · rw [hl2, List.length_append, hL l hl]; rfl
        · intro d hd
          rcases c3 d hd with hd | ⟨f, hf, k, hk, _⟩
          · simp at hd
          · exact (c1 _).2 (Or.inr ⟨f, hf, k, hk⟩)
        · intro x hx
          rcases c2 x hx with hx | hx
          · right
            rcases (h2 x).1 hx with hx | ⟨f, hf, hb, hm⟩
            · exact hvdone x hx
            · obtain ⟨hd, ht⟩ := hLdone f hf
              refine ⟨?_, fun hs => ht (.step hb hs)⟩
              rintro k y ⟨b, hb1, hb2, hb3⟩
              exact hd k y ⟨b, .step hb hb1, hb2, hb3⟩
          · exact Or.inl hx
    · rw [if_neg hl]
      refine ⟨fun _ h => (by cases h), ?_⟩
      intro err h
      refine ⟨(Except.error.inj (Option.some.inj h)).symm, ?_⟩
      have hnil : L = [] := by
        cases L with
        | nil => rfl
        | cons _ _ => simp at hl
      have hall : ∀ x ∈ v, (∀ k y, Step env x k y → y ∈ v) ∧ ¬ Sub env.bases x target := by
        intro x hx
        rcases hv x hx with ⟨p, hp⟩ | h
        · rw [hnil] at hp; simp at hp
        · exact h
      have hreach : ∀ p c, Chain env source p c → c ∈ v := by
        intro p c hc
        induction hc with
        | nil => exact hS
        | snoc _ hst ih => exact (hall _ ih).1 _ _ hst
      intro p c hc
      exact (hall c (hreach p c hc)).2

/-- **C35** (completeness and minimality) If all inherited converters are visible from a class or its
direct bases, then `get_converter` returns a chain iff there is one; the chain is a shortest one; and
otherwise it raises `NoConverterError`.  What is missing: converters that are visible only from bases
of bases, see the counterexample. -/
theorem C35_shortest_partial (env : ClassEnv α κ) (classes : List α) (wf : ClassWf env classes)
    (hvis : Visible env) (source target : α) (hs : source ∈ classes)
    (hm : Sub env.bases source env.moments) :
    ((∃ p c, Chain env source p c ∧ Sub env.bases c target) ∧
      ∃ path, getConverter env source target (classes.length + 1) = some (.ok path) ∧
        (∃ c, Chain env source path c ∧ Sub env.bases c target) ∧
        ∀ p c, Chain env source p c → Sub env.bases c target → path.length ≤ p.length) ∨
    ((¬ ∃ p c, Chain env source p c ∧ Sub env.bases c target) ∧
      getConverter env source target (classes.length + 1) = some (.error .noConverter)) := by
  have hterm := C35_terminates env classes wf source target hs
  have hsound := C35_sound env classes wf source target hm (classes.length + 1)
  have hcomp : (∀ path, getConverter env source target (classes.length + 1) = some (.ok path) →
      ∀ p c, Chain env source p c → Sub env.bases c target → path.length ≤ p.length) ∧
    (∀ e, getConverter env source target (classes.length + 1) = some (.error e) →
      e = .noConverter ∧ ∀ p c, Chain env source p c → ¬ Sub env.bases c target) := by
    unfold getConverter
    by_cases hc : env.issub source target = true
    · rw [if_pos hc]
      refine ⟨?_, fun _ h => by cases h⟩
      intro path h p c _ _
      obtain rfl := Except.ok.inj (Option.some.inj h)
      simp
    · rw [if_neg hc]
      refine converterLoop_complete env classes wf hvis source target _ 0 _ _ (by simp) (by simp) (by simp)
        ?_ ?_
      · intro x hx
        rw [List.mem_singleton] at hx
        subst hx
        exact Or.inl ⟨[], by simp⟩
      · intro p c _ h; omega
  rcases h : getConverter env source target (classes.length + 1) with _ | (e | path)
  · exact absurd h hterm
  · obtain ⟨rfl, hno⟩ := hcomp.2 e h
    exact Or.inr ⟨fun ⟨p, c, h1, h2⟩ => hno p c h1 h2, rfl⟩
  · obtain ⟨c, h1, h2⟩ := hsound path h
    exact Or.inl ⟨⟨path, c, h1, h2⟩, path, rfl, ⟨c, h1, h2⟩, hcomp.1 path h⟩

omit [DecidableEq α] in
/-- A sufficient condition: the converters a class inherits are among its own ones unless they belong
to a direct base.  This holds for all classes with at most one class between them and `Moments`, if
`Moments` itself has no converters. -/
theorem visible_of_flat (env : ClassEnv α κ) (h0 : env.convs env.moments = [])
    (hflat : ∀ c b, Sub env.bases c b → Sub env.bases b env.moments →
      b = env.moments ∨ b = c ∨ b ∈ env.bases c) : Visible env := by
  intro c b d k hb hm hk
  rcases hflat c b hb hm with rfl | h | h
  · rw [h0] at hk; simp at hk
  · exact ⟨b, k, Or.inl h, hm, hk⟩
  · exact ⟨b, k, Or.inr h, hm, hk⟩

/-! ### Examples -/

/-- Some of the classes of BayesPy: 0 `object`, 1 `Moments`, 2 `GaussianMoments`, 3
`GaussianGammaMoments`, 4 `GaussianWishartMoments`, 5 `GaussianMarkovChainMoments`, 6
`MultinomialMoments`, 7 `CategoricalMoments`. -/
def demoClasses0 : ClassEnv Nat String where
  bases c := match c with
    | 0 => []
    | 1 => [0]
    | 7 => [6]
    | _ => [1]
  mro c := match c with
    | 0 => [0]
    | 1 => [1, 0]
    | 7 => [7, 6, 1, 0]
    | _ => [c, 1, 0]
  issub c d := match c with
    | 0 => d = 0
    | 1 => d = 1 || d = 0
    | 7 => d = 7 || d = 6 || d = 1 || d = 0
    | _ => d = c || d = 1 || d = 0
  moments := 1
  own c := if c = 1 then some [] else none

/-- With their converters. -/
def demoClasses : ClassEnv Nat String :=
  addConverter (addConverter (addConverter demoClasses0 5 2 "chain->gaussian") 2 3 "gaussian->gamma")
    3 4 "gamma->wishart"

example : getConverter demoClasses 5 4 9 =
    some (.ok ["chain->gaussian", "gaussian->gamma", "gamma->wishart"]) := by decide +kernel
example : getConverter demoClasses 7 6 9 = some (.ok []) := by decide +kernel
example : getConverter demoClasses 4 2 9 = some (.error .noConverter) := by decide +kernel

theorem demoClasses_sub (c d : Nat) : Sub demoClasses.bases c d ↔ d ∈ demoClasses.mro c := by
  constructor
  · intro h
    induction h with
    | refl =>
      rename_i c
      show c ∈ demoClasses0.mro c
      unfold demoClasses0
      simp only []
      split <;> simp
    | step m _ ih =>
      rename_i c b d _
      have m' : b ∈ demoClasses0.bases c := m
      have ih' : d ∈ demoClasses0.mro b := ih
      show d ∈ demoClasses0.mro c
      unfold demoClasses0 at m' ih' ⊢
      simp only [] at m' ih' ⊢
      split at m' <;> simp_all
  · have h0 : ∀ c, c ≠ 0 → c ≠ 1 → c ≠ 7 → demoClasses.bases c = [1] ∧
        demoClasses.mro c = [c, 1, 0] := by
      intro c h0 h1 h7
      constructor
      · show demoClasses0.bases c = [1]
        unfold demoClasses0
        simp only []
      · show demoClasses0.mro c = [c, 1, 0]
        unfold demoClasses0
        simp only []
    have s1 : Sub demoClasses.bases 1 0 := .step (by decide) .refl
    have hg : ∀ c, c ≠ 0 → c ≠ 1 → c ≠ 7 → Sub demoClasses.bases c 1 := by
      intro c h1 h2 h3
      exact .step (by rw [(h0 c h1 h2 h3).1]; simp) .refl
    intro h
    by_cases c0 : c = 0
    · subst c0
      have : d ∈ [0] := h
      simp only [List.mem_singleton] at this
      subst this; exact .refl
    by_cases c1 : c = 1
    · subst c1
      have : d ∈ [1, 0] := h
      simp only [List.mem_cons, List.not_mem_nil, or_false] at this
      rcases this with rfl | rfl
      · exact .refl
      · exact s1
    by_cases c7 : c = 7
    · subst c7
      have : d ∈ [7, 6, 1, 0] := h
      have s76 : Sub demoClasses.bases 7 6 := .step (by decide) .refl
      have s71 := s76.trans (hg 6 (by decide) (by decide) (by decide))
      simp only [List.mem_cons, List.not_mem_nil, or_false] at this
      rcases this with rfl | rfl | rfl | rfl
      · exact .refl
      · exact s76
      · exact s71
      · exact s71.trans s1
    · rw [(h0 c c0 c1 c7).2] at h
      simp only [List.mem_cons, List.not_mem_nil, or_false] at h
      rcases h with rfl | rfl | rfl
      · exact .refl
      · exact hg c c0 c1 c7
      · exact (hg c c0 c1 c7).trans s1

/-- The example meets the hypotheses of `C35_shortest_partial`. -/
theorem demoClasses_wf : ClassWf demoClasses [0, 1, 2, 3, 4, 5, 6, 7] ∧ Visible demoClasses := by
  have hconvs : ∀ c, demoClasses.convs c =
      if c = 5 then [(2, "chain->gaussian")] else if c = 2 then [(3, "gaussian->gamma")]
      else if c = 3 then [(4, "gamma->wishart")] else [] := by
    intro c
    by_cases h5 : c = 5
    · subst h5; decide
    by_cases h2 : c = 2
    · subst h2; decide
    by_cases h3 : c = 3
    · subst h3; decide
    rw [if_neg h5, if_neg h2, if_neg h3]
    by_cases h0 : c = 0
    · subst h0; decide
    by_cases h1 : c = 1
    · subst h1; decide
    by_cases h7 : c = 7
    · subst h7; decide
    have hm : demoClasses.mro c = [c, 1, 0] := by
      show demoClasses0.mro c = [c, 1, 0]
      unfold demoClasses0
      simp only []
    have ho : demoClasses.own c = none := by
      simp [demoClasses, addConverter, demoClasses0, h5, h2, h3, h1]
    unfold ClassEnv.convs
    rw [hm, List.findSome?_cons, ho]
    decide
  have hsub := demoClasses_sub
  have hmom : demoClasses.moments = 1 := rfl
  have hiss : ∀ c d, demoClasses.issub c d = true ↔ d ∈ demoClasses.mro c := by
    intro c d
    show demoClasses0.issub c d = true ↔ d ∈ demoClasses0.mro c
    unfold demoClasses0
    simp only []
    split <;> simp [or_assoc]
  refine ⟨⟨?_, by decide, ?_, ?_⟩, ?_⟩
  · intro c d; rw [hsub, hiss]
  · intro c _ d k h
    rw [hconvs] at h
    split_ifs at h <;> simp at h <;> simp [h.1]
  · intro c d k h
    rw [hsub, hmom]
    rw [hconvs] at h
    split_ifs at h <;> simp at h <;> rw [h.1] <;> decide
  · intro c b d k hcb hb hk
    rw [hsub] at hcb
    -- only the classes 2, 3 and 5 have converters, and nothing inherits from them
    have hbc : b = c := by
      rw [hconvs] at hk
      have : b = 5 ∨ b = 2 ∨ b = 3 := by
        by_contra hne
        push Not at hne
        rw [if_neg hne.1, if_neg hne.2.1, if_neg hne.2.2] at hk
        simp at hk
      have hcb' : b ∈ demoClasses0.mro c := hcb
      unfold demoClasses0 at hcb'
      simp only [] at hcb'
      split at hcb' <;> simp at hcb' <;> omega
    exact ⟨b, k, Or.inl hbc, hb, hk⟩

example : ∃ path, getConverter demoClasses 5 4 9 = some (.ok path) ∧ path.length = 3 ∧
    ∀ p c, Chain demoClasses 5 p c → Sub demoClasses.bases c 4 → 3 ≤ p.length := by
  rcases C35_shortest_partial demoClasses _ demoClasses_wf.1 demoClasses_wf.2 5 4 (by decide)
    ((demoClasses_sub 5 1).2 (by decide)) with ⟨_, path, h, _, hmin⟩ | ⟨_, h⟩
  · have e : getConverter demoClasses 5 4 9 =
        some (.ok ["chain->gaussian", "gaussian->gamma", "gamma->wishart"]) := by decide +kernel
    have e2 : some (.ok path) = some (Except.ok _) := h.symm.trans e
    obtain rfl := Except.ok.inj (Option.some.inj e2)
    exact ⟨_, h, rfl, hmin⟩
  · have e : getConverter demoClasses 5 4 9 =
        some (.ok ["chain->gaussian", "gaussian->gamma", "gamma->wishart"]) := by decide +kernel
    have e2 := h.symm.trans e
    cases e2

/-- Class 4 inherits from 3, 3 from 2, and 2 from 1 (`Moments`).  A converter from 3 to 5 is registered
first, and then one from 2 to 6. -/
def deepClasses : ClassEnv Nat String :=
  addConverter (addConverter
    { bases := fun c => match c with
        | 0 => []
        | 1 => [0]
        | 2 => [1]
        | 3 => [2]
        | 4 => [3]
        | _ => [1]
      mro := fun c => match c with
        | 0 => [0]
        | 1 => [1, 0]
        | 2 => [2, 1, 0]
        | 3 => [3, 2, 1, 0]
        | 4 => [4, 3, 2, 1, 0]
        | _ => [c, 1, 0]
      issub := fun c d => match c with
        | 0 => d = 0
        | 1 => d = 1 || d = 0
        | 2 => d = 2 || d = 1 || d = 0
        | 3 => d = 3 || d = 2 || d = 1 || d = 0
        | 4 => d = 4 || d = 3 || d = 2 || d = 1 || d = 0
        | _ => d = c || d = 1 || d = 0
      moments := 1
      own := fun c => if c = 1 then some [] else none } 3 5 "a") 2 6 "b"

/-- **C35 fails** if a converter is registered with a class two levels above after the class in between
got its own converters: there is a chain, of one converter, but `NoConverterError` is raised, although
the docstring says that parent classes are added recursively. -/
theorem C35_grandparent_counterexample :
    Chain deepClasses 4 ["b"] 6 ∧ Sub deepClasses.bases 6 6 ∧
    getConverter deepClasses 4 6 100 = some (.error .noConverter) := by
  refine ⟨?_, .refl, by decide +kernel⟩
  have h1 : Sub deepClasses.bases 2 1 := .step (by decide) .refl
  have h2 : Sub deepClasses.bases 4 2 := .step (b := 3) (by decide) (.step (b := 2) (by decide) .refl)
  exact .snoc (path := []) .nil ⟨2, h2, h1, by decide⟩

end Verif
