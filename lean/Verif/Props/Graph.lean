import Mathlib.Order.BooleanAlgebra.Basic
import Verif.Lemmas.Delete

/-!
# C31, C32, C34: registration of children, independence of parents, deletion
-/

namespace Verif

open Spec (Built ValidNode Influential Below Uses)

variable {M : Type _}

/-! ### Examples of graphs -/

/-- A stochastic node (for examples). -/
def stochNode (parents : List Nat) (plates : List Nat) : NodeSpec Bool :=
  ⟨.stochastic, parents, some plates, fun _ p => p, fun _ m => m⟩

/-- A deterministic node (for examples). -/
def detNode (parents : List Nat) : NodeSpec Bool :=
  ⟨.deterministic, parents, none, fun _ p => p, fun _ m => m⟩

/-- A `Concatenate` node (for examples). -/
def concatNode (parents : List Nat) : NodeSpec Bool :=
  ⟨.concatenate, parents, none, fun _ p => p, fun _ m => m⟩

/-- Construct several nodes. -/
def constructAll : List (NodeSpec Bool) → Graph Bool → Graph Bool
  | [], g => g
  | nd :: nds, g => constructAll nds (construct nd g).2

/-- All of them are valid and constructed. -/
def allConstructed : List (NodeSpec Bool) → Graph Bool → Bool
  | [], _ => true
  | nd :: nds, g => decide ((construct nd g).1 = .ok g.size) && nd.parents.all (· < g.size) &&
      decide (nd.kind ≠ .constant) && allConstructed nds (construct nd g).2

theorem built_constructAll (nds : List (NodeSpec Bool)) (g : Graph Bool) (b : Built g)
    (h : allConstructed nds g = true) (ht : ∀ nd ∈ nds, ∀ i, nd.toParent i ⊥ = ⊥) :
    Built (constructAll nds g) := by
  induction nds generalizing g with
  | nil => exact b
  | cons nd nds ih =>
    simp only [allConstructed, Bool.and_eq_true, decide_eq_true_eq, List.all_eq_true] at h
    obtain ⟨⟨⟨h1, h2⟩, h3⟩, h4⟩ := h
    refine ih _ (.construct (n := g.size) (nd := nd) b
      ⟨h2, fun h => absurd h h3, ht nd (by simp)⟩ (Prod.ext h1 rfl)) h4
      (fun nd hnd => ht nd (List.mem_cons_of_mem _ hnd))

/-- Node 0 is stochastic, 1 and 2 are deterministic functions of it, 3 is a stochastic child of 1, and
4 is a `Concatenate` of 0 and 1 twice. -/
def demoGraph : Graph Bool :=
  constructAll [stochNode [] [3], detNode [0], detNode [0], stochNode [1] [3], concatNode [0, 1, 1]]
    Spec.emptyGraph

theorem demoGraph_built : Built demoGraph := by
  refine built_constructAll _ _ .empty (by decide) ?_
  simp [stochNode, detNode, concatNode]

/-! ### C31 -/

variable [SemilatticeSup M] [OrderBot M]

/-- **C31** After any history (in which no construction fails after its parents were informed), the
children registered with a node are exactly the nodes that were constructed with it as a parent and
that are stochastic or have a stochastic descendant through deterministic nodes; each once per
parent index.  What is missing: constructions that fail in the test of the plates; see the
counterexample below. -/
theorem C31_registration_partial (g : Graph M) (b : Built g) (p c i : Nat) :
    (g.children p).Nodup ∧
    ((c, i) ∈ g.children p ↔ (g.parents c)[i]? = some p ∧ Influential g c) := by
  obtain ⟨_, r⟩ := built_reg b
  exact ⟨r.1 p, by rw [r.2, act_iff_influential]⟩

example : demoGraph.children 0 = [(1, 0)] ∧ demoGraph.children 1 = [(3, 0)] ∧
    Influential demoGraph 1 ∧ ¬ Influential demoGraph 2 := by
  have h1 : demoGraph.children 0 = [(1, 0)] := by decide
  refine ⟨h1, by decide, ?_, ?_⟩
  · exact ((C31_registration_partial demoGraph demoGraph_built 0 1 0).2.1 (by rw [h1]; simp)).2
  · intro h
    have := (C31_registration_partial demoGraph demoGraph_built 0 2 0).2.2 ⟨by decide, h⟩
    rw [h1] at this
    simp at this

/-- A construction that fails in the test of the plates leaves the failed node registered with its
parent: here node 1, plates `(2,)`, with a parent with plates `(3,)`. -/
theorem C31_failed_construction_counterexample :
    Built (constructAll [stochNode [] [3]] Spec.emptyGraph) ∧
    (constructAll [stochNode [] [3]] Spec.emptyGraph).children 0 = [] ∧
    (construct (stochNode [0] [2]) (constructAll [stochNode [] [3]] Spec.emptyGraph)).1 =
      .error .valueError ∧
    (construct (stochNode [0] [2]) (constructAll [stochNode [] [3]] Spec.emptyGraph)).2.children 0 =
      [(1, 0)] := by
  refine ⟨built_constructAll _ _ .empty (by decide) ?_, by decide, by decide, by decide⟩
  simp [stochNode]

omit [SemilatticeSup M] [OrderBot M] in
theorem influential_of_below {g : Graph M} {n s : Nat} (h : Below g n s) :
    (g.kind n).isDet = true → Influential g n := by
  induction h with
  | direct k m => intro h; exact .deterministic h m (.stochastic k)
  | via k m _ ih => intro h; exact .deterministic h m (ih k)

/-- **C31** The messages a node gets from its children come from exactly the stochastic nodes below it
(through deterministic nodes). -/
theorem C31_messages_partial (g : Graph M) (b : Built g) (fuel n s : Nat) (hf : g.size ≤ n + fuel) :
    s ∈ messageSources g fuel n ↔ Below g n s := by
  obtain ⟨w, r⟩ := built_reg b
  induction fuel generalizing n with
  | zero =>
    refine ⟨fun h => absurd h (by simp [messageSources]), fun h => ?_⟩
    exfalso
    have : ∃ c i : Nat, (g.parents c)[i]? = some n := by
      cases h with
      | direct _ m => obtain ⟨i, hi⟩ := List.getElem?_of_mem m; exact ⟨_, i, hi⟩
      | via _ m _ => obtain ⟨i, hi⟩ := List.getElem?_of_mem m; exact ⟨_, i, hi⟩
    obtain ⟨c, i, hi⟩ := this
    have := w.parents_lt _ _ (List.mem_of_getElem? hi)
    rw [(w.fresh c (by omega)).1] at hi
    simp at hi
  | succ fuel ih =>
    rw [messageSources, List.mem_flatMap]
    constructor
    · rintro ⟨⟨c, i⟩, hc, hs⟩
      obtain ⟨hp, a⟩ := (r.2 n c i).1 hc
      have hlt := w.parents_lt _ _ (List.mem_of_getElem? hp)
      by_cases hk : (g.kind c).isDet = true
      · simp only [if_pos hk] at hs
        exact .via hk (List.mem_of_getElem? hp) ((ih c (by omega)).1 hs)
      · simp only [if_neg hk, List.mem_singleton] at hs
        subst hs
        rw [act_iff_influential] at a
        cases a with
        | stochastic h => exact .direct h (List.mem_of_getElem? hp)
        | deterministic h _ _ => exact absurd h hk
    · intro h
      cases h with
      | direct k m =>
        obtain ⟨i, hi⟩ := List.getElem?_of_mem m
        refine ⟨(s, i), (r.2 n s i).2 ⟨hi, .forced k⟩, ?_⟩
        simp [k, NodeKind.isDet]
      | via k m h =>
        rename_i d
        obtain ⟨i, hi⟩ := List.getElem?_of_mem m
        have hlt := w.parents_lt _ _ m
        refine ⟨(d, i), (r.2 n d i).2 ⟨hi, act_iff_influential.2 (influential_of_below h k)⟩, ?_⟩
        simp only [if_pos k]
        exact (ih d (by omega)).2 h

example : messageSources demoGraph 5 0 = [3] := by decide

/-- The graph as if `n` had never been constructed. -/
def Spec.without (g : Graph M) (n : Nat) : Graph M :=
  { g with kind := Function.update g.kind n .constant, parents := Function.update g.parents n [] }

omit [SemilatticeSup M] [OrderBot M] in
theorem act_without_iff {g : Graph M} {n : Nat} (hn : g.kind n = .stochastic) {c i p : Nat}
    (hp : (g.parents c)[i]? = some p) :
    Act g (fun a b => stochEdges g a b ∧ ¬ (a = n ∧ ∃ q ∈ (g.parents n).zipIdx, q.2 = b)) c i ↔
      c ≠ n ∧ Influential (Spec.without g n) c := by
  constructor
  · intro a
    induction a generalizing p with
    | forced f =>
      rename_i c i
      have hc : c ≠ n := by
        rintro rfl
        exact f.2 ⟨rfl, (p, i), (mem_zipIdx_iff _ _ _).2 hp, rfl⟩
      refine ⟨hc, .stochastic ?_⟩
      simp only [Spec.without, Function.update_of_ne hc]
      exact f.1
    | up k m a ih =>
      rename_i c i d j
      obtain ⟨hd, h⟩ := ih m
      have hc : c ≠ n := by
        rintro rfl
        rw [hn] at k
        simp [NodeKind.isDet] at k
      refine ⟨hc, .deterministic (d := d) ?_ ?_ h⟩
      · simp only [Spec.without, Function.update_of_ne hc]; exact k
      · simp only [Spec.without, Function.update_of_ne hd]; exact List.mem_of_getElem? m
  · rintro ⟨hc, h⟩
    clear hp
    induction h generalizing i with
    | stochastic h =>
      simp only [Spec.without, Function.update_of_ne hc] at h
      exact .forced ⟨h, fun h => hc h.1⟩
    | deterministic k m a ih =>
      rename_i c d
      have hd : d ≠ n := by
        rintro rfl
        simp [Spec.without] at m
      simp only [Spec.without, Function.update_of_ne hc] at k
      simp only [Spec.without, Function.update_of_ne hd] at m
      obtain ⟨j, hj⟩ := List.getElem?_of_mem m
      exact .up k hj (ih (i := j) hd)

/-- **C31** Removal undoes registration: removing a stochastic node from its parents succeeds and
leaves the children registered as if it had never been constructed. -/
theorem C31_removal_partial (g : Graph M) (b : Built g) (n : Nat) (hn : g.kind n = .stochastic) :
    ∃ g', forEach (fun q : Nat × Nat => removeChild g.size q.1 (n, q.2)) (g.parents n).zipIdx g =
        (.ok (), g') ∧
      ∀ p c i, (c, i) ∈ g'.children p ↔
        ((Spec.without g n).parents c)[i]? = some p ∧ Influential (Spec.without g n) c := by
  obtain ⟨w, r⟩ := built_reg b
  have hsz : n < g.size := by
    by_contra h
    rw [(w.fresh n (by omega)).2] at hn
    cases hn
  obtain ⟨g', e, s, reg⟩ := removeEdges_reg (n := n) (g.parents n).zipIdx g (stochEdges g)
    w.parents_lt (fuel := g.size) (by omega) r (by rw [hn]; rfl)
    (fun x k f => by rw [show g.kind x = .stochastic from f]; rfl)
    (List.Nodup.of_map Prod.snd (by rw [List.zipIdx_map_snd]; exact List.nodup_range' ..)) (by
      rintro ⟨q, i⟩ hq
      exact ⟨(mem_zipIdx_iff _ _ _).1 hq, hn⟩)
  refine ⟨g', e, ?_⟩
  intro p c i
  rw [reg.2, Act.same s, s.parents]
  constructor
  · rintro ⟨hp, a⟩
    obtain ⟨hc, h⟩ := (act_without_iff hn hp).1 a
    refine ⟨?_, h⟩
    simp only [Spec.without, Function.update_of_ne hc]
    exact hp
  · rintro ⟨hp, h⟩
    have hc : c ≠ n := by
      rintro rfl
      simp [Spec.without] at hp
    simp only [Spec.without, Function.update_of_ne hc] at hp
    exact ⟨hp, (act_without_iff hn hp).2 ⟨hc, h⟩⟩

example : demoGraph.kind 3 = .stochastic ∧
    (forEach (fun q : Nat × Nat => removeChild demoGraph.size q.1 (3, q.2))
      (demoGraph.parents 3).zipIdx demoGraph).2.children 0 = [] := by decide

/-! ### C34 -/

/-- **C34** `delete` of a stochastic node without children works.  What is missing: all other nodes,
see below. -/
theorem C34_leaf_partial (g : Graph M) (b : Built g) (n fuel : Nat) (hn : g.kind n = .stochastic)
    (hc : g.children n = []) :
    ∃ g', delete (fuel + 1) n g = (.ok (), g') ∧
      ∀ p c i, (c, i) ∈ g'.children p ↔
        ((Spec.without g n).parents c)[i]? = some p ∧ Influential (Spec.without g n) c := by
  obtain ⟨g', e, h⟩ := C31_removal_partial g b n hn
  refine ⟨g', ?_, h⟩
  have hsh := forEach_shrinks (fun q : Nat × Nat => removeChild g.size q.1 (n, q.2))
      (fun a g' => removeChild_shrinks g.size a.1 (n, a.2) g') (g.parents n).zipIdx g
  rw [e] at hsh
  have h0 : g'.children n = [] := by
    have := hsh.2 n
    rw [hc] at this
    exact List.sublist_nil.1 this
  rw [delete_succ, e]
  simp only [h0]
  unfold deleteLoop
  rw [if_neg (by rw [h0]; simp)]

example : (delete 2 3 demoGraph).1 = .ok () ∧ (delete 2 3 demoGraph).2.children 0 = [] := by decide

/-- **C34 fails** for every node with a registered child: `delete` raises, since the set of children is
changed while it is iterated. -/
theorem C34_refuted (g : Graph M) (b : Built g) (n c i fuel : Nat)
    (hp : (g.parents c)[i]? = some n) (hc : Influential g c) :
    ∃ e, (delete fuel n g).1 = .error e := by
  obtain ⟨w, r⟩ := built_reg b
  refine delete_children_error w r ?_
  have := (r.2 n c i).2 ⟨hp, act_iff_influential.2 hc⟩
  intro h
  rw [h] at this
  simp at this

example : (delete 6 0 demoGraph).1 = .error .keyError ∧
    (delete 6 0 (constructAll [stochNode [] [3], stochNode [0] [3]] Spec.emptyGraph)).1 =
      .error .runtimeError := by decide

/-- **C34 fails** for every deterministic node with parents but without stochastic descendants:
`KeyError`, since it was not registered with its parents. -/
theorem C34_deterministic_counterexample (g : Graph M) (b : Built g) (n fuel : Nat)
    (hp : g.parents n ≠ []) (hi : ¬ Influential g n) :
    (delete (fuel + 1) n g).1 = .error .keyError := by
  obtain ⟨w, r⟩ := built_reg b
  obtain ⟨p, ps, hps⟩ := List.exists_cons_of_ne_nil hp
  have hsz : 0 < g.size := by
    by_contra h
    rw [(w.fresh n (by omega)).1] at hp
    exact hp rfl
  obtain ⟨k, hk'⟩ : ∃ k, g.size = k + 1 := ⟨g.size - 1, by omega⟩
  have hno : (n, 0) ∉ g.children p := by
    rw [r.2, act_iff_influential]
    exact fun h => hi h.2
  have e : forEach (fun q : Nat × Nat => removeChild g.size q.1 (n, q.2)) (g.parents n).zipIdx g =
      (.error .keyError, g) := by
    rw [hps, List.zipIdx_cons]
    refine forEach_cons_error _ _ _ g g _ ?_
    show removeChild g.size p (n, 0) g = _
    rw [hk']
    unfold removeChild
    rw [if_neg hno]
  rw [delete_succ, e]

example : (demoGraph.kind 2).isDet = true ∧ (delete 6 2 demoGraph).1 = .error .keyError := by decide

/-! ### C32 -/

omit [SemilatticeSup M] [OrderBot M] in
theorem idList_fuel (g : Graph M) (hlt : ∀ n q, q ∈ g.parents n → q < n) (n : Nat) :
    ∀ f, n < f → idList g f n = idList g (n + 1) n := by
  induction n using Nat.strong_induction_on with
  | _ n ih =>
    intro f hf
    obtain ⟨f, rfl⟩ : ∃ k, f = k + 1 := ⟨f - 1, by omega⟩
    have key : (g.parents n).flatMap (idList g f) = (g.parents n).flatMap (idList g n) := by
      rw [List.flatMap_def, List.flatMap_def]
      congr 1
      apply List.map_congr_left
      intro q hq
      have := hlt n q hq
      rw [ih q this f (by omega), ih q this n this]
    unfold idList
    rw [key]

omit [SemilatticeSup M] [OrderBot M] in
theorem mem_idList (g : Graph M) (hlt : ∀ n q, q ∈ g.parents n → q < n) (f n s : Nat) (hf : n < f) :
    s ∈ idList g f n ↔ Uses g n s := by
  induction f generalizing n with
  | zero => omega
  | succ f ih =>
    unfold idList
    have key : (g.kind n).isDet = true →
        (s ∈ (g.parents n).flatMap (idList g f) ↔ Uses g n s) := by
      intro hk
      rw [List.mem_flatMap]
      constructor
      · rintro ⟨q, hq, h⟩
        exact .via hk hq ((ih q (by have := hlt n q hq; omega)).1 h)
      · intro h
        cases h with
        | self h => rw [h] at hk; cases hk
        | via _ hq h => exact ⟨_, hq, (ih _ (by have := hlt n _ hq; omega)).2 h⟩
    cases hk : g.kind n with
    | stochastic =>
      simp only [List.mem_singleton]
      constructor
      · rintro rfl; exact .self hk
      · intro h
        cases h with
        | self _ => rfl
        | via h _ _ => rw [hk] at h; cases h
    | constant =>
      simp only [List.not_mem_nil, false_iff]
      intro h
      cases h with
      | self h => rw [hk] at h; cases h
      | via h _ _ => rw [hk] at h; cases h
    | deterministic => exact key (by rw [hk]; rfl)
    | concatenate =>
      simp only [List.mem_dedup]
      exact key (by rw [hk]; rfl)

omit [SemilatticeSup M] [OrderBot M] in
/-- The identifiers of old nodes do not change. -/
theorem idList_congr {g g' : Graph M} {N : Nat} (hlt : ∀ n q, q ∈ g.parents n → q < n)
    (hk : ∀ n, n < N → g'.kind n = g.kind n) (hp : ∀ n, n < N → g'.parents n = g.parents n)
    (f n : Nat) (hn : n < N) : idList g' f n = idList g f n := by
  induction f generalizing n with
  | zero => rfl
  | succ f ih =>
    have key : (g.parents n).flatMap (idList g' f) = (g.parents n).flatMap (idList g f) := by
      rw [List.flatMap_def, List.flatMap_def]
      congr 1
      apply List.map_congr_left
      intro q hq
      have := hlt n q hq
      exact ih q (by omega)
    unfold idList
    rw [hk n hn, hp n hn, key]

/-- In all histories the lists of identifiers have no repetitions. -/
theorem built_ids {g : Graph M} (b : Built g) :
    ∀ n, n < g.size → (idList g g.size n).Nodup := by
  induction b with
  | empty => intro n hn; exact absurd hn (by simp [Spec.emptyGraph])
  | @construct g g' nd n b v h ih =>
    obtain ⟨w, r⟩ := built_reg b
    obtain ⟨_, hd, pl, e⟩ := construct_ok h
    obtain ⟨s, _⟩ := notifyParents_reg w r v
    have hk : g'.kind = (newNode nd g).kind := by
      rw [e]; show (notifyParents _ _ _).kind = _; exact s.kind
    have hp : g'.parents = (newNode nd g).parents := by
      rw [e]; show (notifyParents _ _ _).parents = _; exact s.parents
    have hsz : g'.size = g.size + 1 := by
      rw [e]; show (notifyParents _ _ _).size = _; rw [s.size]; rfl
    have hold : ∀ f m, m < g.size → idList g' f m = idList g f m := by
      intro f m hm
      refine idList_congr (N := g.size) w.parents_lt ?_ ?_ f m hm
      · intro k hk'
        rw [hk]; simp only [newNode, Function.update_of_ne (Nat.ne_of_lt hk')]
      · intro k hk'
        rw [hp]; simp only [newNode, Function.update_of_ne (Nat.ne_of_lt hk')]
    intro m hm
    rw [hsz] at hm ⊢
    by_cases hms : m = g.size
    · subst hms
      have hpar : g'.parents g.size = nd.parents := by rw [hp]; simp [newNode]
      have hkind : g'.kind g.size = nd.kind := by rw [hk]; simp [newNode]
      have hids : nd.parents.flatMap (idList g' g.size) =
          nd.parents.flatMap fun p => idList g g.size p := by
        rw [List.flatMap_def, List.flatMap_def]
        congr 1
        apply List.map_congr_left
        intro q hq
        exact hold _ q (v.parents q hq)
      unfold idList
      rw [hpar, hkind]
      cases hnk : nd.kind with
      | stochastic => simp
      | constant => simp
      | concatenate => exact List.nodup_dedup _
      | deterministic =>
        simp only []
        rw [hids]
        have hl : (nd.parents.flatMap fun p => idList g g.size p).length =
            (nd.parents.flatMap fun p => idList g g.size p).dedup.length := by
          by_contra hne
          exact hd ⟨by rw [hnk]; simp, hne⟩
        rw [← List.dedup_eq_self]
        exact (List.dedup_sublist _).eq_of_length hl.symm
    · rw [hold _ m (by omega), idList_fuel g w.parents_lt m _ (by omega),
        ← idList_fuel g w.parents_lt m g.size (by omega)]
      exact ih m (by omega)
  | @observe g n m b k ih =>
    intro n' hn
    have hs := setObserved_same n m g
    have hsz : (setObserved n m g).size = g.size := by rw [hs]
    rw [hsz] at hn ⊢
    rw [idList_congr (g := g) (N := n' + 1) (built_reg b).1.parents_lt
      (fun _ _ => by rw [hs]) (fun _ _ => by rw [hs]) _ _ (by omega)]
    exact ih n' hn

/-- The identifiers of the parents are repeated iff two of the parents share a stochastic node. -/
theorem ids_nodup_iff {g : Graph M} (b : Built g) (ps : List Nat) (hps : ∀ p ∈ ps, p < g.size) :
    (ps.flatMap fun p => idList g g.size p).length ≠
        (ps.flatMap fun p => idList g g.size p).dedup.length ↔
      ∃ i j p q s : Nat, i ≠ j ∧ ps[i]? = some p ∧ ps[j]? = some q ∧ Uses g p s ∧ Uses g q s := by
  have hlt := (built_reg b).1.parents_lt
  have h1 : (ps.flatMap fun p => idList g g.size p).length ≠
      (ps.flatMap fun p => idList g g.size p).dedup.length ↔
      ¬ (ps.flatMap fun p => idList g g.size p).Nodup := by
    rw [← List.dedup_eq_self, not_iff_not]
    constructor
    · intro h; exact (List.dedup_sublist _).eq_of_length h.symm
    · intro h; rw [h]
  rw [h1, List.nodup_flatMap]
  constructor
  · intro h
    by_contra hno
    apply h
    refine ⟨fun p hp => built_ids b p (hps p hp), ?_⟩
    rw [List.pairwise_iff_getElem]
    intro i j hi hj hij
    rw [Function.onFun, List.disjoint_left]
    intro s h1 h2
    have m1 := hps _ (List.getElem_mem hi)
    have m2 := hps _ (List.getElem_mem hj)
    exact hno ⟨i, j, ps[i], ps[j], s, by omega, List.getElem?_eq_getElem hi,
      List.getElem?_eq_getElem hj, (mem_idList g hlt _ _ _ m1).1 h1, (mem_idList g hlt _ _ _ m2).1 h2⟩
  · rintro ⟨i, j, p, q, s, hij, hi, hj, h1, h2⟩ ⟨_, hpw⟩
    rw [List.pairwise_iff_getElem] at hpw
    obtain ⟨hi', rfl⟩ := List.getElem?_eq_some_iff.1 hi
    obtain ⟨hj', rfl⟩ := List.getElem?_eq_some_iff.1 hj
    have m1 := (mem_idList g hlt _ _ s (hps _ (List.getElem_mem hi'))).2 h1
    have m2 := (mem_idList g hlt _ _ s (hps _ (List.getElem_mem hj'))).2 h2
    rcases Nat.lt_or_gt_of_ne hij with h | h
    · exact List.disjoint_left.1 (hpw i j hi' hj' h) m1 m2
    · exact List.disjoint_left.1 (hpw j i hj' hi' h) m2 m1

/-- **C32** If two of the parents share a stochastic node through deterministic nodes, the constructor
raises `ValueError` and nothing has changed. -/
theorem C32_dependent_rejected_partial (g : Graph M) (b : Built g) (nd : NodeSpec M) (v : ValidNode g nd)
    (hk : nd.kind ≠ .concatenate) (i j p q s : Nat) (hij : i ≠ j)
    (hi : nd.parents[i]? = some p) (hj : nd.parents[j]? = some q) (hp : Uses g p s)
    (hq : Uses g q s) : construct nd g = (.error .valueError, g) := by
  unfold construct
  rw [if_pos ⟨hk, (ids_nodup_iff b nd.parents v.parents).2 ⟨i, j, p, q, s, hij, hi, hj, hp, hq⟩⟩]

example : Uses demoGraph 0 0 ∧ Uses demoGraph 1 0 ∧
    construct (stochNode [0, 1] [3]) demoGraph = (.error .valueError, demoGraph) := by
  have h0 : Uses demoGraph 0 0 := .self (by decide)
  have h1 : Uses demoGraph 1 0 := .via (by decide) (q := 0) (by decide) h0
  exact ⟨h0, h1, C32_dependent_rejected_partial demoGraph demoGraph_built _
    ⟨by decide, by decide, fun _ => rfl⟩ (by decide) 0 1 0 1 0 (by decide) rfl rfl h0 h1⟩

/-- **C32** If no two parents share a stochastic node, the constructor raises only if the plates do
not fit. -/
theorem C32_independent_accepted (g : Graph M) (b : Built g) (nd : NodeSpec M) (v : ValidNode g nd)
    (h : ¬ ∃ i j p q s : Nat, i ≠ j ∧ nd.parents[i]? = some p ∧ nd.parents[j]? = some q ∧
      Uses g p s ∧ Uses g q s) (pl : List Nat)
    (hpl : totalPlates nd.plates (nd.parents.zipIdx.map fun q => nd.platesFrom q.2 (g.plates q.1)) =
      .ok pl) : (construct nd g).1 = .ok g.size ∧ (construct nd g).2.plates g.size = pl := by
  unfold construct
  rw [if_neg (fun hd => h ((ids_nodup_iff b nd.parents v.parents).1 hd.2))]
  simp [hpl]

/-- `Concatenate` allows dependent parents, by design (the parents have separate plates). -/
theorem C32_concatenate_counterexample (g : Graph M) (nd : NodeSpec M) (hk : nd.kind = .concatenate)
    (pl : List Nat)
    (hpl : totalPlates nd.plates (nd.parents.zipIdx.map fun q => nd.platesFrom q.2 (g.plates q.1)) =
      .ok pl) : (construct nd g).1 = .ok g.size := by
  unfold construct
  rw [if_neg (by simp [hk])]
  simp only [hpl]

example : (construct (stochNode [1, 3] [3]) demoGraph).1 = .ok 5 ∧
    (construct (detNode [4, 3]) demoGraph).1 = .ok 5 ∧
    (construct (detNode [4, 2]) demoGraph).1 = .error .valueError := by decide

end Verif
