import Verif.Lemmas.Graph

/-! # Invariants of all histories -/

namespace Verif

open Spec (Built ValidNode)

variable {M : Type _}

/-- The edges registered by themselves: those of stochastic nodes. -/
def stochEdges (g : Graph M) : Nat → Nat → Prop := fun c _ => g.kind c = .stochastic

/-- Only the masks differ. -/
def SameButMask (g g' : Graph M) : Prop := g' = { g with mask := g'.mask }

theorem SameButMask.refl (g : Graph M) : SameButMask g g := rfl

theorem SameButMask.trans {a b c : Graph M} (h : SameButMask a b) (h' : SameButMask b c) :
    SameButMask a c := by
  unfold SameButMask at *
  rw [h', h]

theorem updateMask_same [SemilatticeSup M] [OrderBot M] (fuel : Nat) : ∀ (n : Nat) (g : Graph M),
    SameButMask g (updateMask fuel n g) := by
  induction fuel with
  | zero => intro n g; exact SameButMask.refl g
  | succ fuel ih =>
    intro n g
    have loop : ∀ (L : List Nat) (g : Graph M),
        SameButMask g (L.foldl (fun g p => updateMask fuel p g) g) := by
      intro L
      induction L with
      | nil => intro g; exact SameButMask.refl g
      | cons p L ihL => intro g; exact (ih p g).trans (ihL _)
    have h0 : SameButMask g { g with mask := Function.update g.mask n (localMask g n) } := rfl
    exact h0.trans (loop _ _)

theorem setObserved_same [SemilatticeSup M] [OrderBot M] (n : Nat) (m : M) (g : Graph M) :
    setObserved n m g = { g with observed := Function.update g.observed n m,
                                 mask := (setObserved n m g).mask } := by
  have := updateMask_same g.size n { g with observed := Function.update g.observed n m }
  unfold SameButMask at this
  unfold setObserved
  rw [this]

section
variable [Bot M]

theorem newNode_wf {g : Graph M} {nd : NodeSpec M} (w : GraphWf g) (v : ValidNode g nd) :
    GraphWf (newNode nd g) := by
  constructor
  · intro n p h
    by_cases hn : n = g.size
    · subst hn
      simp only [newNode, Function.update_self] at h
      exact v.parents p h
    · simp only [newNode, Function.update_of_ne hn] at h
      exact w.parents_lt n p h
  · intro n hn
    have hn' : g.size + 1 ≤ n := hn
    have hne : n ≠ g.size := by omega
    simp only [newNode, Function.update_of_ne hne]
    exact w.fresh n (by omega)

omit [Bot M] in
theorem Reg.lt {g : Graph M} {F : Nat → Nat → Prop} (w : GraphWf g) (r : Reg g F) {p c i : Nat}
    (h : (c, i) ∈ g.children p) : p < c ∧ c < g.size := by
  have hp := ((r.2 p c i).1 h).1
  refine ⟨w.parents_lt _ _ (List.mem_of_getElem? hp), ?_⟩
  by_contra hc
  rw [(w.fresh c (by omega)).1] at hp
  simp at hp

theorem Act.newNode_iff {g : Graph M} {nd : NodeSpec M} (w : GraphWf g) (v : ValidNode g nd)
    {c i p : Nat} (hp : ((newNode nd g).parents c)[i]? = some p) :
    Act (newNode nd g) (fun c _ => g.kind c = .stochastic) c i ↔
      c ≠ g.size ∧ Act g (stochEdges g) c i := by
  constructor
  · intro a
    induction a generalizing p with
    | forced f =>
      rename_i c i
      refine ⟨?_, .forced f⟩
      rintro rfl
      rw [(w.fresh _ le_rfl).2] at f
      simp at f
    | up k m a ih =>
      rename_i c i d j
      have hd := (newNode_wf w v).parents_lt _ _ (List.mem_of_getElem? m)
      obtain ⟨h1, h2⟩ := ih m
      simp only [newNode, Function.update_of_ne h1] at m
      have hc : c ≠ g.size := by
        rintro rfl
        have hlt := w.parents_lt _ _ (List.mem_of_getElem? m)
        rw [(w.fresh d (by omega)).1] at m
        simp at m
      simp only [newNode, Function.update_of_ne hc] at k
      exact ⟨hc, .up k m h2⟩
  · rintro ⟨hc, a⟩
    clear hp
    induction a with
    | forced f => exact .forced f
    | up k m a ih =>
      rename_i c i d j
      have hd : d ≠ g.size := by
        rintro rfl
        rw [(w.fresh _ le_rfl).1] at m
        simp at m
      refine .up ?_ ?_ (ih hd)
      · simp only [newNode, Function.update_of_ne hc]; exact k
      · simp only [newNode, Function.update_of_ne hd]; exact m

theorem newNode_reg {g : Graph M} {nd : NodeSpec M} (w : GraphWf g) (r : Reg g (stochEdges g))
    (v : ValidNode g nd) : Reg (newNode nd g) (fun c _ => g.kind c = .stochastic) := by
  constructor
  · intro p
    by_cases hp : p = g.size
    · subst hp; simp [newNode]
    · simp only [newNode, Function.update_of_ne hp]; exact r.1 p
  · intro p c i
    have key : (c, i) ∈ (newNode nd g).children p ↔ (c, i) ∈ g.children p := by
      by_cases hp : p = g.size
      · subst hp
        simp only [newNode, Function.update_self, List.not_mem_nil, false_iff]
        intro h
        have := r.lt w h
        omega
      · simp only [newNode, Function.update_of_ne hp]
    rw [key, r.2]
    constructor
    · rintro ⟨h, a⟩
      have hc : c ≠ g.size := by
        rintro rfl
        rw [(w.fresh _ le_rfl).1] at h
        simp at h
      have h' : ((newNode nd g).parents c)[i]? = some p := by
        simp only [newNode, Function.update_of_ne hc]; exact h
      exact ⟨h', (Act.newNode_iff w v h').2 ⟨hc, a⟩⟩
    · rintro ⟨h, a⟩
      obtain ⟨hc, a⟩ := (Act.newNode_iff w v h).1 a
      simp only [newNode, Function.update_of_ne hc] at h
      exact ⟨h, a⟩

omit [Bot M] in
/-- Informing the parents one by one. -/
theorem notify_loop {n : Nat} : ∀ (L : List (Nat × Nat)) (g : Graph M) (F : Nat → Nat → Prop),
    (∀ n q, q ∈ g.parents n → q < n) → Reg g F →
    (∀ q ∈ L, (g.parents n)[q.2]? = some q.1) →
    SameNodes g (L.foldl (fun g q => addChild n q.1 (n, q.2) g) g) ∧
    Reg (L.foldl (fun g q => addChild n q.1 (n, q.2) g) g)
      (fun a b => F a b ∨ (a = n ∧ ∃ q ∈ L, q.2 = b)) := by
  intro L
  induction L with
  | nil => intro g F _ r _; exact ⟨SameNodes.refl g, by simpa using r⟩
  | cons q L ih =>
    intro g F hlt r hL
    have hq := hL q (by simp)
    obtain ⟨s1, r1⟩ := addChild_reg hlt (hlt _ _ (List.mem_of_getElem? hq)) r hq
    obtain ⟨s2, r2⟩ := ih _ _ (by rw [s1.parents]; exact hlt) r1
      (by intro q hq; rw [s1.parents]; exact hL q (List.mem_cons_of_mem _ hq))
    refine ⟨s1.trans s2, r2.congr ?_⟩
    intro a b _ _
    simp only [List.mem_cons, exists_eq_or_imp]
    constructor
    · rintro ((h | ⟨h1, h2⟩) | ⟨h1, h2⟩)
      · exact Or.inl h
      · exact Or.inr ⟨h1, Or.inl h2.symm⟩
      · exact Or.inr ⟨h1, Or.inr h2⟩
    · rintro (h | ⟨h1, h2 | h2⟩)
      · exact Or.inl (Or.inl h)
      · exact Or.inl (Or.inr ⟨h1, h2.symm⟩)
      · exact Or.inr ⟨h1, h2⟩

theorem notifyParents_reg {g : Graph M} {nd : NodeSpec M} (w : GraphWf g)
    (r : Reg g (stochEdges g)) (v : ValidNode g nd) :
    SameNodes (newNode nd g) (notifyParents nd g.size (newNode nd g)) ∧
    Reg (notifyParents nd g.size (newNode nd g)) (stochEdges (newNode nd g)) := by
  have hk : ∀ c, (newNode nd g).kind c = if c = g.size then nd.kind else g.kind c := by
    intro c
    by_cases hc : c = g.size
    · subst hc; simp [newNode]
    · simp [newNode, hc]
  have r0 := newNode_reg w r v
  unfold notifyParents
  by_cases hs : nd.kind = .stochastic
  · rw [if_pos hs]
    have hpar : (newNode nd g).parents g.size = nd.parents := by simp [newNode]
    obtain ⟨s1, r1⟩ := notify_loop (n := g.size) nd.parents.zipIdx _ _
      (newNode_wf w v).parents_lt r0 (by
        rintro ⟨q, i⟩ hq
        rw [mem_zipIdx_iff] at hq
        rw [hpar]; exact hq)
    refine ⟨s1, r1.congr ?_⟩
    intro c i p hp
    rw [s1.parents] at hp
    unfold stochEdges
    rw [hk]
    by_cases hc : c = g.size
    · subst hc
      rw [if_pos rfl, hpar] at *
      refine ⟨fun _ => hs, fun _ => Or.inr ⟨rfl, (p, i), (mem_zipIdx_iff _ _ _).2 hp, rfl⟩⟩
    · rw [if_neg hc]
      constructor
      · rintro (h | ⟨h, _⟩)
        · exact h
        · exact absurd h hc
      · exact Or.inl
  · rw [if_neg hs]
    refine ⟨SameNodes.refl _, r0.congr ?_⟩
    intro c i p hp
    unfold stochEdges
    rw [hk]
    by_cases hc : c = g.size
    · subst hc
      rw [if_pos rfl, (w.fresh _ le_rfl).2]
      simp [hs]
    · rw [if_neg hc]

/-- What a successful construction gives. -/
theorem construct_ok {g g' : Graph M} {nd : NodeSpec M} {n : Nat}
    (h : construct nd g = (.ok n, g')) :
    n = g.size ∧ ¬ (nd.kind ≠ .concatenate ∧
      (nd.parents.flatMap fun p => idList g g.size p).length ≠
        (nd.parents.flatMap fun p => idList g g.size p).dedup.length) ∧
    ∃ pl, g' = { notifyParents nd g.size (newNode nd g) with
      plates := Function.update g.plates g.size pl } := by
  unfold construct at h
  by_cases hd : nd.kind ≠ .concatenate ∧
      (nd.parents.flatMap fun p => idList g g.size p).length ≠
        (nd.parents.flatMap fun p => idList g g.size p).dedup.length
  · simp only [if_pos hd] at h
    cases h
  · simp only [if_neg hd] at h
    split at h
    · cases h
    · rename_i pl _
      obtain ⟨h1, h2⟩ := Prod.mk.inj h
      exact ⟨(Except.ok.inj h1).symm, hd, pl, h2.symm⟩

end

theorem Reg.transport {g g' : Graph M} {F : Nat → Nat → Prop} (r : Reg g F)
    (hk : g'.kind = g.kind) (hp : g'.parents = g.parents) (hc : g'.children = g.children) :
    Reg g' F := by
  have key : ∀ c i, Act g' F c i ↔ Act g F c i := by
    intro c i
    constructor
    · intro a
      induction a with
      | forced f => exact .forced f
      | up k m _ ih => rw [hk] at k; rw [hp] at m; exact .up k m ih
    · intro a
      induction a with
      | forced f => exact .forced f
      | up k m _ ih => exact .up (by rw [hk]; exact k) (by rw [hp]; exact m) ih
  refine ⟨by rw [hc]; exact r.1, ?_⟩
  intro p c i
  rw [hc, hp, r.2, key]

theorem built_reg [SemilatticeSup M] [OrderBot M] {g : Graph M} (b : Built g) :
    GraphWf g ∧ Reg g (stochEdges g) := by
  induction b with
  | empty =>
    refine ⟨⟨by simp [Spec.emptyGraph], by simp [Spec.emptyGraph]⟩, by simp [Spec.emptyGraph], ?_⟩
    intro p c i
    simp [Spec.emptyGraph]
  | construct b v h ih =>
    obtain ⟨w, r⟩ := ih
    obtain ⟨_, _, pl, rfl⟩ := construct_ok h
    obtain ⟨s, r'⟩ := notifyParents_reg w r v
    have w' := s.wf (newNode_wf w v)
    refine ⟨⟨w'.parents_lt, w'.fresh⟩, ?_⟩
    refine Reg.congr (F := stochEdges (newNode _ _)) ?_ (Reg.transport r' rfl rfl rfl)
    intro c i p _
    show _ ↔ (notifyParents _ _ _).kind c = _
    rw [s.kind]
    rfl
  | observe m b k ih =>
    obtain ⟨w, r⟩ := ih
    rw [setObserved_same]
    exact ⟨⟨w.parents_lt, w.fresh⟩, Reg.transport r rfl rfl rfl⟩

/-- The registered edges are those of the nodes that can send messages. -/
theorem act_iff_influential {g : Graph M} {c i : Nat} :
    Act g (stochEdges g) c i ↔ Spec.Influential g c := by
  constructor
  · intro a
    induction a with
    | forced f => exact .stochastic f
    | up k m _ ih => exact .deterministic k (List.mem_of_getElem? m) ih
  · intro a
    induction a generalizing i with
    | stochastic f => exact .forced f
    | deterministic k m _ ih =>
      obtain ⟨j, hj⟩ := List.getElem?_of_mem m
      exact .up k hj (ih (i := j))

end Verif
