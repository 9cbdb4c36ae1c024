import Verif.Props.Graph

/-! # C33: masks after any history -/

namespace Verif

open Spec (Built ValidNode Influential Reaches)

section
variable {M : Type _} [SemilatticeSup M] [OrderBot M]

/-- What the children contribute to the mask of `n`. -/
def childMask (g : Graph M) (n : Nat) : M :=
  (g.children n).foldl (fun m ci => m ⊔ g.toParent ci.1 ci.2 (g.mask ci.1)) ⊥

omit [OrderBot M] in
theorem foldl_sup_le {α : Type _} (f : α → M) (l : List α) (a b : M) :
    l.foldl (fun m x => m ⊔ f x) a ≤ b ↔ a ≤ b ∧ ∀ x ∈ l, f x ≤ b := by
  induction l generalizing a with
  | nil => simp
  | cons x l ih =>
    rw [List.foldl_cons, ih, sup_le_iff, List.forall_mem_cons, and_assoc]

theorem childMask_le {g : Graph M} {n : Nat} {b : M} :
    childMask g n ≤ b ↔ ∀ c i, (c, i) ∈ g.children n → g.toParent c i (g.mask c) ≤ b := by
  unfold childMask
  rw [foldl_sup_le (fun ci : Nat × Nat => g.toParent ci.1 ci.2 (g.mask ci.1))]
  simp only [bot_le, true_and, Prod.forall]

theorem le_childMask {g : Graph M} {n c i : Nat} (h : (c, i) ∈ g.children n) :
    g.toParent c i (g.mask c) ≤ childMask g n := childMask_le.1 le_rfl c i h

theorem localMask_eq (g : Graph M) (n : Nat) :
    localMask g n = if g.kind n = .stochastic then childMask g n ⊔ g.observed n
      else childMask g n := rfl

/-- The mask of `n` is up to date. -/
def MaskOk (g : Graph M) (n : Nat) : Prop := g.mask n = localMask g n

/-- Changing the mask of a node that is not a child. -/
theorem localMask_update {g : Graph M} {n x : Nat} {m : M} (h : ∀ i, (n, i) ∉ g.children x) :
    localMask { g with mask := Function.update g.mask n m } x = localMask g x := by
  have key : childMask { g with mask := Function.update g.mask n m } x = childMask g x := by
    have hc : ∀ c i, (c, i) ∈ g.children x → Function.update g.mask n m c = g.mask c := by
      intro c i hc
      refine Function.update_of_ne ?_ _ _
      rintro rfl
      exact h i hc
    apply le_antisymm
    · rw [childMask_le]
      intro c i hc'
      have := le_childMask (g := g) hc'
      show g.toParent c i (Function.update g.mask n m c) ≤ _
      rw [hc c i hc']; exact this
    · rw [childMask_le]
      intro c i hc'
      have := le_childMask (g := { g with mask := Function.update g.mask n m }) (n := x) hc'
      have h2 : g.toParent c i (Function.update g.mask n m c) ≤ _ := this
      rw [hc c i hc'] at h2; exact h2
  rw [localMask_eq, localMask_eq, key]

/-- `_update_mask` repairs the mask of a node, and of all nodes affected by that. -/
theorem updateMask_ok (fuel : Nat) : ∀ (n : Nat) (g : Graph M) (S : Nat → Prop),
    (∀ n q, q ∈ g.parents n → q < n) →
    (∀ p c i, (c, i) ∈ g.children p → p ∈ g.parents c) → n < fuel →
    (∀ x, ¬ S x → x ≠ n → MaskOk g x) → ∀ x, ¬ S x → MaskOk (updateMask fuel n g) x := by
  induction fuel with
  | zero => intro n g S _ _ h; omega
  | succ fuel ih =>
    intro n g S hlt hch hf hok
    have loop : ∀ (L : List Nat) (g : Graph M), (∀ n q, q ∈ g.parents n → q < n) →
        (∀ p c i, (c, i) ∈ g.children p → p ∈ g.parents c) → (∀ p ∈ L, p < fuel) →
        (∀ x, ¬ S x → x ∉ L → MaskOk g x) →
        ∀ x, ¬ S x → MaskOk (L.foldl (fun g p => updateMask fuel p g) g) x := by
      intro L
      induction L with
      | nil => intro g _ _ _ h x hx; exact h x hx (by simp)
      | cons p L ihL =>
        intro g hlt hch hL h
        have hs := updateMask_same fuel p g
        refine ihL (updateMask fuel p g) (by rw [hs]; exact hlt) (by rw [hs]; exact hch)
          (fun q hq => hL q (List.mem_cons_of_mem _ hq)) ?_
        intro x hx hxL
        refine ih p g (fun x => S x ∨ x ∈ L) hlt hch (hL p (by simp)) ?_ x (by tauto)
        intro y hy hyp
        exact h y (fun h => hy (Or.inl h)) (by
          rw [List.mem_cons]
          rintro (h | h)
          · exact hyp h
          · exact hy (Or.inr h))
    unfold updateMask
    refine loop _ { g with mask := Function.update g.mask n (localMask g n) } hlt hch ?_ ?_
    · intro p hp
      have := hlt n p hp
      omega
    · intro x hx hxp
      have hxp' : x ∉ g.parents n := hxp
      have hnc : ∀ i, (n, i) ∉ g.children x := fun i hi => hxp' (hch x n i hi)
      unfold MaskOk
      rw [localMask_update hnc]
      by_cases hxn : x = n
      · subst hxn
        exact Function.update_self ..
      · show Function.update g.mask n (localMask g n) x = _
        rw [Function.update_of_ne hxn]
        exact hok x hx hxn

theorem built_toParent {g : Graph M} (b : Built g) : ∀ c i, g.toParent c i ⊥ = ⊥ := by
  induction b with
  | empty => intro c i; rfl
  | @construct g g' nd n b v h ih =>
    obtain ⟨w, r⟩ := built_reg b
    obtain ⟨_, _, pl, rfl⟩ := construct_ok h
    obtain ⟨s, _⟩ := notifyParents_reg w r v
    intro c i
    show (notifyParents _ _ _).toParent c i ⊥ = ⊥
    rw [s]
    show Function.update g.toParent g.size nd.toParent c i ⊥ = ⊥
    by_cases hc : c = g.size
    · subst hc; rw [Function.update_self]; exact v.toParent i
    · rw [Function.update_of_ne hc]; exact ih c i
  | observe m b k ih => intro c i; rw [setObserved_same]; exact ih c i

/-- After any history all masks are up to date. -/
theorem built_masks {g : Graph M} (b : Built g) : ∀ n, MaskOk g n := by
  induction b with
  | empty => intro n; rfl
  | @construct g g' nd n b v h ih =>
    obtain ⟨w, r⟩ := built_reg b
    have b' := Built.construct b v h
    obtain ⟨w', r'⟩ := built_reg b'
    obtain ⟨_, _, pl, e⟩ := construct_ok h
    obtain ⟨s, _⟩ := notifyParents_reg w r v
    have hk : g'.kind = Function.update g.kind g.size nd.kind := by
      rw [e]; show (notifyParents _ _ _).kind = _; rw [s]; rfl
    have hp : g'.parents = Function.update g.parents g.size nd.parents := by
      rw [e]; show (notifyParents _ _ _).parents = _; rw [s]; rfl
    have hm : g'.mask = Function.update g.mask g.size ⊥ := by
      rw [e]; show (notifyParents _ _ _).mask = _; rw [s]; rfl
    have ht : g'.toParent = Function.update g.toParent g.size nd.toParent := by
      rw [e]; show (notifyParents _ _ _).toParent = _; rw [s]; rfl
    have ho : g'.observed = Function.update g.observed g.size ⊥ := by
      rw [e]; show (notifyParents _ _ _).observed = _; rw [s]; rfl
    have hsz : g'.size = g.size + 1 := by
      rw [e]; show (notifyParents _ _ _).size = _; rw [s]; rfl
    have hbot := built_toParent b'
    -- new edges contribute nothing
    have hnew : ∀ x c i, (c, i) ∈ g'.children x → (c, i) ∉ g.children x → g'.mask c = ⊥ := by
      intro x c i h1 h2
      rw [hm]
      by_cases hc : c = g.size
      · subst hc; rw [Function.update_self]
      · rw [Function.update_of_ne hc]
        obtain ⟨h3, h4⟩ := (r'.2 x c i).1 h1
        rw [hp, Function.update_of_ne hc] at h3
        have h5 : ¬ Act g (stochEdges g) c i := fun a => h2 ((r.2 x c i).2 ⟨h3, a⟩)
        have h6 : g.kind c ≠ .stochastic := fun h => h5 (.forced h)
        rw [ih c, localMask_eq, if_neg h6]
        refine le_antisymm ?_ bot_le
        rw [childMask_le]
        intro d j hd
        obtain ⟨h7, h8⟩ := (r.2 c d j).1 hd
        have h9 : (g.kind c).isDet = true := by
          cases h4 with
          | forced f =>
            have f' : g'.kind c = .stochastic := f
            rw [hk, Function.update_of_ne hc] at f'
            exact absurd f' h6
          | up k _ _ => rw [hk, Function.update_of_ne hc] at k; exact k
        exact absurd (.up h9 h7 h8) h5
    have hold : ∀ x c i, (c, i) ∈ g.children x → x ≠ g.size → c ≠ g.size ∧
        (c, i) ∈ g'.children x := by
      intro x c i h1 hx
      have hc : c ≠ g.size := by have := r.lt w h1; omega
      obtain ⟨h3, h4⟩ := (r.2 x c i).1 h1
      refine ⟨hc, (r'.2 x c i).2 ⟨?_, ?_⟩⟩
      · rw [hp, Function.update_of_ne hc]; exact h3
      · clear h1 h3
        rw [act_iff_influential] at h4 ⊢
        clear hc
        induction h4 with
        | stochastic f =>
          refine .stochastic ?_
          rw [hk, Function.update_of_ne]
          · exact f
          · rintro rfl; rw [(w.fresh _ le_rfl).2] at f; cases f
        | deterministic k m _ ih =>
          refine .deterministic ?_ ?_ ih
          · rw [hk, Function.update_of_ne]
            · exact k
            · rintro rfl; rw [(w.fresh _ le_rfl).2] at k; cases k
          · rw [hp, Function.update_of_ne]
            · exact m
            · rintro rfl; rw [(w.fresh _ le_rfl).1] at m; simp at m
    intro x
    unfold MaskOk
    by_cases hx : x = g.size
    · subst hx
      have : childMask g' g.size = ⊥ := by
        refine le_antisymm ?_ bot_le
        rw [childMask_le]
        intro c i hc
        have := r'.lt w' hc
        omega
      rw [localMask_eq, this, hm, Function.update_self, ho, Function.update_self]
      simp
    · have hcm : childMask g' x = childMask g x := by
        apply le_antisymm
        · rw [childMask_le]
          intro c i hc
          by_cases hin : (c, i) ∈ g.children x
          · have hne := (hold x c i hin hx).1
            rw [ht, hm, Function.update_of_ne hne, Function.update_of_ne hne]
            exact le_childMask hin
          · rw [hnew x c i hc hin, hbot]; exact bot_le
        · rw [childMask_le]
          intro c i hc
          obtain ⟨hne, hc'⟩ := hold x c i hc hx
          have := le_childMask hc'
          rw [ht, hm, Function.update_of_ne hne, Function.update_of_ne hne] at this
          exact this
      rw [localMask_eq, hcm, hm, hk, ho, Function.update_of_ne hx, Function.update_of_ne hx,
        Function.update_of_ne hx]
      exact ih x
  | @observe g n m b k ih =>
    obtain ⟨w, r⟩ := built_reg b
    intro x
    have hn : n < g.size := by
      by_contra h
      rw [(w.fresh n (by omega)).2] at k
      cases k
    refine updateMask_ok g.size n { g with observed := Function.update g.observed n m }
      (fun _ => False) w.parents_lt
      (fun p c i h => List.mem_of_getElem? ((r.2 p c i).1 h).1) hn ?_ x (by simp)
    intro y _ hy
    have : localMask { g with observed := Function.update g.observed n m } y = localMask g y := by
      rw [localMask_eq, localMask_eq]
      show (if g.kind y = .stochastic then childMask g y ⊔ Function.update g.observed n m y
        else childMask g y) = _
      rw [Function.update_of_ne hy]
    unfold MaskOk
    rw [this]
    exact ih y

/-- Unregistered edges carry no mask. -/
theorem unregistered_mask {g : Graph M} (b : Built g) {x c i : Nat}
    (hp : (g.parents c)[i]? = some x) (h : (c, i) ∉ g.children x) (hk : g.kind c ≠ .constant) :
    g.mask c = ⊥ := by
  obtain ⟨w, r⟩ := built_reg b
  have h5 : ¬ Act g (stochEdges g) c i := fun a => h ((r.2 x c i).2 ⟨hp, a⟩)
  have h6 : g.kind c ≠ .stochastic := fun h => h5 (.forced h)
  rw [built_masks b c, localMask_eq, if_neg h6]
  refine le_antisymm ?_ bot_le
  rw [childMask_le]
  intro d j hd
  obtain ⟨h7, h8⟩ := (r.2 c d j).1 hd
  refine absurd (.up ?_ h7 h8) h5
  cases hk' : g.kind c with
  | stochastic => exact absurd hk' h6
  | constant => exact absurd hk' hk
  | deterministic => rfl
  | concatenate => rfl

theorem built_constant {g : Graph M} (b : Built g) : ∀ n, g.kind n = .constant → g.parents n = [] := by
  induction b with
  | empty => intro n _; rfl
  | @construct g g' nd n b v h ih =>
    obtain ⟨w, r⟩ := built_reg b
    obtain ⟨_, _, pl, rfl⟩ := construct_ok h
    obtain ⟨s, _⟩ := notifyParents_reg w r v
    intro c
    show (notifyParents _ _ _).kind c = _ → (notifyParents _ _ _).parents c = _
    rw [s]
    show Function.update g.kind g.size nd.kind c = _ →
      Function.update g.parents g.size nd.parents c = _
    by_cases hc : c = g.size
    · subst hc; rw [Function.update_self, Function.update_self]; exact v.constant
    · rw [Function.update_of_ne hc, Function.update_of_ne hc]; exact ih c
  | observe m b k ih => intro c; rw [setObserved_same]; exact ih c

/-- **C33** After any history, the mask of a node is the least one that contains its own observations
and what the masks of all nodes that have it as a parent map to. -/
theorem C33_least (g : Graph M) (b : Built g) (n : Nat) (m : M) :
    g.mask n ≤ m ↔ (g.kind n = .stochastic → g.observed n ≤ m) ∧
      ∀ c i : Nat, (g.parents c)[i]? = some n → g.toParent c i (g.mask c) ≤ m := by
  have hch : childMask g n ≤ m ↔
      ∀ c i : Nat, (g.parents c)[i]? = some n → g.toParent c i (g.mask c) ≤ m := by
    rw [childMask_le]
    constructor
    · intro h c i hp
      by_cases hin : (c, i) ∈ g.children n
      · exact h c i hin
      · rw [unregistered_mask b hp hin, built_toParent b]
        · exact bot_le
        · intro hk
          rw [built_constant b c hk] at hp
          simp at hp
    · intro h c i hc
      exact h c i (((built_reg b).2.2 n c i).1 hc).1
  rw [built_masks b n, localMask_eq]
  split
  · rename_i hk
    rw [sup_le_iff, hch]
    tauto
  · rename_i hk
    rw [hch]
    tauto

example : (setObserved 3 true demoGraph).mask 0 = true ∧
    (setObserved 3 true demoGraph).mask 1 = true ∧
    (setObserved 3 true demoGraph).mask 2 = false ∧ (demoGraph.mask 0 = false) ∧
    (setObserved 3 false (setObserved 3 true demoGraph)).mask 0 = false ∧
    Built (setObserved 3 true demoGraph) :=
  ⟨by decide, by decide, by decide, by decide, by decide, .observe true demoGraph_built (by decide)⟩

/-- **C33** The masks are determined by what is observed: two histories that lead to the same nodes and
the same observations lead to the same masks. -/
theorem C33_determined (g g' : Graph M) (b : Built g) (b' : Built g') (hk : g'.kind = g.kind)
    (hp : g'.parents = g.parents) (ht : g'.toParent = g.toParent) (ho : g'.observed = g.observed) :
    g'.mask = g.mask := by
  obtain ⟨w, _⟩ := built_reg b
  have key : ∀ k n, g.size ≤ n + k → g'.mask n = g.mask n := by
    intro k
    induction k with
    | zero =>
      intro n hn
      have hno : ∀ c i : Nat, (g.parents c)[i]? ≠ some n := by
        intro c i h
        have := w.parents_lt _ _ (List.mem_of_getElem? h)
        rw [(w.fresh c (by omega)).1] at h
        simp at h
      apply le_antisymm
      · rw [C33_least g' b', hk, ho, hp]
        exact ⟨((C33_least g b n (g.mask n)).1 le_rfl).1, fun c i h => absurd h (hno c i)⟩
      · rw [C33_least g b, ← hk, ← ho]
        exact ⟨((C33_least g' b' n (g'.mask n)).1 le_rfl).1, fun c i h => absurd h (hno c i)⟩
    | succ k ih =>
      intro n hn
      have hc : ∀ c i : Nat, (g.parents c)[i]? = some n → g'.mask c = g.mask c := by
        intro c i h
        have := w.parents_lt _ _ (List.mem_of_getElem? h)
        exact ih c (by omega)
      apply le_antisymm
      · rw [C33_least g' b', hk, ho, hp, ht]
        obtain ⟨h1, h2⟩ := (C33_least g b n (g.mask n)).1 le_rfl
        exact ⟨h1, fun c i h => by rw [hc c i h]; exact h2 c i h⟩
      · rw [C33_least g b, ← hk, ← ho]
        obtain ⟨h1, h2⟩ := (C33_least g' b' n (g'.mask n)).1 le_rfl
        refine ⟨h1, fun c i h => ?_⟩
        have := h2 c i (by rw [hp]; exact h)
        rw [hc c i h, ht] at this
        exact this
  funext n
  exact key g.size n (by omega)

/-- Several calls of `observe`. -/
def observeAll (l : List (Nat × M)) (g : Graph M) : Graph M :=
  l.foldl (fun g o => setObserved o.1 o.2 g) g

/-- **C33** The order of the observations of different nodes does not matter. -/
theorem C33_order (g : Graph M) (b : Built g) (l l' : List (Nat × M)) (h : l.Perm l')
    (hnd : (l.map Prod.fst).Nodup) (hs : ∀ o ∈ l, g.kind o.1 = .stochastic) :
    (observeAll l g).mask = (observeAll l' g).mask := by
  -- what several observations change
  have frame : ∀ (l : List (Nat × M)) (g : Graph M), (observeAll l g).kind = g.kind ∧
      (observeAll l g).parents = g.parents ∧ (observeAll l g).toParent = g.toParent ∧
      (observeAll l g).observed =
        l.foldl (fun ob o => Function.update ob o.1 o.2) g.observed := by
    intro l
    induction l with
    | nil => intro g; exact ⟨rfl, rfl, rfl, rfl⟩
    | cons o l ih =>
      intro g
      obtain ⟨h1, h2, h3, h4⟩ := ih (setObserved o.1 o.2 g)
      have e := setObserved_same o.1 o.2 g
      refine ⟨h1.trans (by rw [e]), h2.trans (by rw [e]), h3.trans (by rw [e]), h4.trans ?_⟩
      rw [List.foldl_cons]
      congr 1
      rw [e]
  have built : ∀ (l : List (Nat × M)) (g : Graph M), Built g →
      (∀ o ∈ l, g.kind o.1 = .stochastic) → Built (observeAll l g) := by
    intro l
    induction l with
    | nil => intro g b _; exact b
    | cons o l ih =>
      intro g b hs
      refine ih (setObserved o.1 o.2 g) (.observe o.2 b (hs o (by simp))) ?_
      intro o' ho'
      rw [setObserved_same]
      exact hs o' (List.mem_cons_of_mem _ ho')
  have comm : ∀ (l l' : List (Nat × M)), l.Perm l' → (l.map Prod.fst).Nodup →
      ∀ ob : Nat → M, l.foldl (fun ob o => Function.update ob o.1 o.2) ob =
        l'.foldl (fun ob o => Function.update ob o.1 o.2) ob := by
    intro l l' h
    induction h with
    | nil => intro _ _; rfl
    | cons o _ ih =>
      intro hnd ob
      rw [List.map_cons, List.nodup_cons] at hnd
      exact ih hnd.2 _
    | swap o o' l =>
      intro hnd ob
      simp only [List.map_cons, List.nodup_cons, List.mem_cons, not_or] at hnd
      simp only [List.foldl_cons]
      rw [Function.update_comm (Ne.symm hnd.1.1)]
    | trans h1 _ ih1 ih2 =>
      intro hnd ob
      rw [ih1 hnd, ih2 ((h1.map Prod.fst).nodup_iff.1 hnd)]
  obtain ⟨h1, h2, h3, h4⟩ := frame l g
  obtain ⟨k1, k2, k3, k4⟩ := frame l' g
  refine C33_determined _ _ (built l' g b fun o ho => hs o (h.mem_iff.2 ho)) (built l g b hs)
    (h1.trans k1.symm) (h2.trans k2.symm) (h3.trans k3.symm) ?_
  rw [h4, k4]
  exact comm l l' h hnd _

example : (observeAll [(3, true), (0, false)] demoGraph).mask 0 = true := by decide

end

/-- **C33** With masks as sets of plates, and `_mask_to_parent` given by a relation between plates of
the child and of the parent: after any history, a plate is active iff a plate of a descendant (or of
the node itself) that maps to it is observed. -/
theorem C33_reachable {ι : Type _} (g : Graph (ι → Prop)) (b : Built g)
    (link : Nat → Nat → ι → ι → Prop)
    (hl : ∀ c i p, (g.parents c)[i]? = some p →
      ∀ m q, g.toParent c i m q ↔ ∃ r, m r ∧ link c i r q) (n : Nat) (q : ι) :
    g.mask n q ↔ ∃ d t, g.kind d = .stochastic ∧ g.observed d t ∧ Reaches g link n q d t := by
  obtain ⟨w, _⟩ := built_reg b
  constructor
  · -- induction on the number of younger nodes
    have key : ∀ k n, g.size ≤ n + k → ∀ q, g.mask n q →
        ∃ d t, g.kind d = .stochastic ∧ g.observed d t ∧ Reaches g link n q d t := by
      intro k
      induction k with
      | zero =>
        intro n hn q hq
        refine (C33_least g b n fun q => ∃ d t, g.kind d = .stochastic ∧ g.observed d t ∧
          Reaches g link n q d t).2 ⟨?_, ?_⟩ q hq
        · intro hk q' hq'
          exact ⟨n, q', hk, hq', .refl⟩
        · intro c i h
          have := w.parents_lt _ _ (List.mem_of_getElem? h)
          rw [(w.fresh c (by omega)).1] at h
          simp at h
      | succ k ih =>
        intro n hn q hq
        refine (C33_least g b n fun q => ∃ d t, g.kind d = .stochastic ∧ g.observed d t ∧
          Reaches g link n q d t).2 ⟨?_, ?_⟩ q hq
        · intro hk q' hq'
          exact ⟨n, q', hk, hq', .refl⟩
        · intro c i h q' hq'
          have := w.parents_lt _ _ (List.mem_of_getElem? h)
          obtain ⟨r, hr, hlink⟩ := (hl c i n h _ _).1 hq'
          obtain ⟨d, t, h1, h2, h3⟩ := ih c (by omega) r hr
          exact ⟨d, t, h1, h2, .step h hlink h3⟩
    exact key g.size n (by omega) q
  · rintro ⟨d, t, h1, h2, h3⟩
    induction h3 with
    | refl => exact ((C33_least g b _ _).1 le_rfl).1 h1 _ h2
    | step h hlink _ ih =>
      exact ((C33_least g b _ _).1 le_rfl).2 _ _ h _ ((hl _ _ _ h _ _).2 ⟨_, ih h1 h2, hlink⟩)

/-- **C33** The same locally: a plate is active iff it is observed or a plate of a node with this
parent that maps to it is active. -/
theorem C33_local {ι : Type _} (g : Graph (ι → Prop)) (b : Built g)
    (link : Nat → Nat → ι → ι → Prop)
    (hl : ∀ c i p, (g.parents c)[i]? = some p →
      ∀ m q, g.toParent c i m q ↔ ∃ r, m r ∧ link c i r q) (n : Nat) (q : ι) :
    g.mask n q ↔ (g.kind n = .stochastic ∧ g.observed n q) ∨
      ∃ c i r, (g.parents c)[i]? = some n ∧ g.mask c r ∧ link c i r q := by
  constructor
  · intro h
    refine (C33_least g b n fun q => (g.kind n = .stochastic ∧ g.observed n q) ∨
      ∃ c i r, (g.parents c)[i]? = some n ∧ g.mask c r ∧ link c i r q).2 ⟨?_, ?_⟩ q h
    · intro hk q' hq'; exact Or.inl ⟨hk, hq'⟩
    · intro c i hp q' hq'
      obtain ⟨r, h1, h2⟩ := (hl c i n hp _ _).1 hq'
      exact Or.inr ⟨c, i, r, hp, h1, h2⟩
  · rintro (⟨hk, h⟩ | ⟨c, i, r, hp, h1, h2⟩)
    · exact ((C33_least g b n _).1 le_rfl).1 hk _ h
    · exact ((C33_least g b n _).1 le_rfl).2 c i hp _ ((hl c i n hp _ _).2 ⟨r, h1, h2⟩)

/-- Example: node 0 has plate 0 only, its child 1 has plates 0 and 1, which both map to plate 0. -/
def plateParent : NodeSpec (Nat → Prop) :=
  ⟨.stochastic, [], some [1], fun _ p => p, fun _ m => m⟩

/-- The child in the example. -/
def plateChild : NodeSpec (Nat → Prop) :=
  ⟨.stochastic, [0], some [2], fun _ p => p, fun _ m q => ∃ r, m r ∧ q = 0⟩

/-- Plate 1 of the child is observed. -/
noncomputable def plateGraph : Graph (Nat → Prop) :=
  setObserved 1 (fun q => q = 1) (construct plateChild (construct plateParent Spec.emptyGraph).2).2

theorem plateGraph_built : Built plateGraph := by
  have v0 : ValidNode (Spec.emptyGraph : Graph (Nat → Prop)) plateParent :=
    ⟨fun p hp => absurd hp (List.not_mem_nil), fun h => (by cases h), fun _ => rfl⟩
  refine .observe _ (.construct (n := 1) (nd := plateChild)
    (.construct (n := 0) .empty v0 (Prod.ext rfl rfl)) ⟨?_, ?_, ?_⟩ (Prod.ext rfl rfl)) rfl
  · intro p hp
    have hp : p ∈ [0] := hp
    rw [List.mem_singleton] at hp
    subst hp
    exact Nat.zero_lt_one
  · intro h; cases h
  · intro i
    funext q
    apply propext
    constructor
    · rintro ⟨r, h, _⟩; exact h
    · intro h; exact absurd h id

example : plateGraph.mask 0 0 := by
  rw [C33_reachable plateGraph plateGraph_built (fun c i _ q => c = 1 ∧ q = 0)]
  · exact ⟨1, 1, rfl, rfl, .step (c := 1) (i := 0) (r := 1) rfl ⟨rfl, rfl⟩ .refl⟩
  · have hp : plateGraph.parents = fun c => if c = 1 then [0] else [] := by
      funext c
      show Function.update (Function.update (fun _ => []) 0 []) 1 [0] c = _
      simp only [Function.update_apply]
      split <;> simp
    intro c i p h m q
    rw [hp] at h
    have hc : c = 1 := by
      by_contra hc
      simp [hc] at h
    subst hc
    show (∃ r, m r ∧ q = 0) ↔ _
    simp

end Verif
