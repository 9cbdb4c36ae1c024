import Mathlib.Tactic.Tauto
import Mathlib.Data.List.Dedup
import Mathlib.Data.List.Nodup
import Verif.Spec.Graph
import Verif.Lemmas.Engine

/-! # Lemmas on the registration of children -/

namespace Verif

variable {M : Type _}

/-- Parents are older than their children, and numbers not yet used have no parents. -/
structure GraphWf (g : Graph M) : Prop where
  parents_lt : ∀ n p, p ∈ g.parents n → p < n
  fresh : ∀ n, g.size ≤ n → g.parents n = [] ∧ g.kind n = .constant

/-- Only the children differ. -/
def SameNodes (g g' : Graph M) : Prop := g' = { g with children := g'.children }

theorem SameNodes.refl (g : Graph M) : SameNodes g g := rfl

theorem SameNodes.trans {a b c : Graph M} (h : SameNodes a b) (h' : SameNodes b c) :
    SameNodes a c := by
  unfold SameNodes at *
  rw [h', h]

theorem SameNodes.kind {g g' : Graph M} (h : SameNodes g g') : g'.kind = g.kind := by rw [h]
theorem SameNodes.parents {g g' : Graph M} (h : SameNodes g g') : g'.parents = g.parents := by rw [h]
theorem SameNodes.size {g g' : Graph M} (h : SameNodes g g') : g'.size = g.size := by rw [h]

theorem SameNodes.wf {g g' : Graph M} (h : SameNodes g g') (w : GraphWf g) : GraphWf g' := by
  rw [h]; exact ⟨w.parents_lt, w.fresh⟩

theorem mem_setAdd {α : Type _} [DecidableEq α] (x y : α) (l : List α) :
    y ∈ setAdd x l ↔ y ∈ l ∨ y = x := by
  unfold setAdd
  split
  · rename_i h
    constructor
    · exact Or.inl
    · rintro (h' | rfl)
      · exact h'
      · exact h
  · simp

theorem nodup_setAdd {α : Type _} [DecidableEq α] (x : α) (l : List α) (h : l.Nodup) :
    (setAdd x l).Nodup := by
  unfold setAdd
  split
  · exact h
  · rename_i hx
    rw [List.nodup_append]
    refine ⟨h, by simp, ?_⟩
    intro a ha b hb
    simp only [List.mem_singleton] at hb
    rintro rfl
    subst hb
    exact hx ha

/-- `x` is reached from `p` by going up through deterministic nodes, including `p` and `x`. -/
inductive DetUp (g : Graph M) : Nat → Nat → Prop
  | refl {p : Nat} : (g.kind p).isDet = true → DetUp g p p
  | step {p q x : Nat} : (g.kind p).isDet = true → q ∈ g.parents p → DetUp g q x → DetUp g p x

theorem DetUp.same {g g' : Graph M} (h : SameNodes g g') {p x : Nat} : DetUp g' p x ↔ DetUp g p x := by
  constructor
  · intro d
    induction d with
    | refl k => exact .refl (by rw [h.kind] at k; exact k)
    | step k m _ ih => exact .step (by rw [h.kind] at k; exact k) (by rw [h.parents] at m; exact m) ih
  · intro d
    induction d with
    | refl k => exact .refl (by rw [h.kind]; exact k)
    | step k m _ ih => exact .step (by rw [h.kind]; exact k) (by rw [h.parents]; exact m) ih

theorem mem_zipIdx_iff {α : Type _} (l : List α) (q : α) (i : Nat) :
    (q, i) ∈ l.zipIdx ↔ l[i]? = some q := by
  rw [List.mem_zipIdx_iff_getElem?]

/-- The children after `_add_child`. -/
theorem addChild_spec (fuel : Nat) : ∀ (p : Nat) (ci : Nat × Nat) (g : Graph M),
    (∀ n q, q ∈ g.parents n → q < n) → p < fuel →
    SameNodes g (addChild fuel p ci g) ∧
    (∀ q x, x ∈ (addChild fuel p ci g).children q ↔
      x ∈ g.children q ∨ (q = p ∧ x = ci) ∨ (DetUp g p x.1 ∧ (g.parents x.1)[x.2]? = some q)) ∧
    ((∀ q, (g.children q).Nodup) → ∀ q, ((addChild fuel p ci g).children q).Nodup) := by
  induction fuel with
  | zero => intro p ci g _ h; omega
  | succ fuel ih =>
    intro p ci g hlt hp
    -- the loop over the parents
    have loop : ∀ (L : List (Nat × Nat)) (g : Graph M), (∀ n q, q ∈ g.parents n → q < n) →
        (∀ q ∈ L, q.1 < fuel) →
        SameNodes g (L.foldl (fun g q => addChild fuel q.1 (p, q.2) g) g) ∧
        (∀ q x, x ∈ (L.foldl (fun g q => addChild fuel q.1 (p, q.2) g) g).children q ↔
          x ∈ g.children q ∨ ∃ r ∈ L, (q = r.1 ∧ x = (p, r.2)) ∨
            (DetUp g r.1 x.1 ∧ (g.parents x.1)[x.2]? = some q)) ∧
        ((∀ q, (g.children q).Nodup) →
          ∀ q, ((L.foldl (fun g q => addChild fuel q.1 (p, q.2) g) g).children q).Nodup) := by
      intro L
      induction L with
      | nil => intro g _ _; exact ⟨SameNodes.refl g, by simp, fun h => h⟩
      | cons r L ihL =>
        intro g hlt hL
        obtain ⟨h1, h2, h3⟩ := ih r.1 (p, r.2) g hlt (hL r (by simp))
        have hlt' : ∀ n q, q ∈ (addChild fuel r.1 (p, r.2) g).parents n → q < n := by
          rw [h1.parents]; exact hlt
        obtain ⟨k1, k2, k3⟩ := ihL (addChild fuel r.1 (p, r.2) g) hlt'
          (fun q hq => hL q (List.mem_cons_of_mem _ hq))
        refine ⟨h1.trans k1, ?_, fun h => k3 (h3 h)⟩
        intro q x
        rw [List.foldl_cons, k2, h2]
        simp only [DetUp.same h1, h1.parents, List.mem_cons, exists_eq_or_imp]
        rw [or_assoc]
    have hs : SameNodes g
        { g with children := Function.update g.children p (setAdd ci (g.children p)) } := rfl
    have hm : ∀ q x, x ∈ Function.update g.children p (setAdd ci (g.children p)) q ↔
        x ∈ g.children q ∨ (q = p ∧ x = ci) := by
      intro q x
      by_cases hq : q = p
      · subst hq; rw [Function.update_self, mem_setAdd]; tauto
      · rw [Function.update_of_ne hq]; tauto
    have hn : (∀ q, (g.children q).Nodup) →
        ∀ q, (Function.update g.children p (setAdd ci (g.children p)) q).Nodup := by
      intro h q
      by_cases hq : q = p
      · subst hq; rw [Function.update_self]; exact nodup_setAdd _ _ (h q)
      · rw [Function.update_of_ne hq]; exact h q
    unfold addChild
    by_cases hk : (g.kind p).isDet = true
    · rw [if_pos hk]
      obtain ⟨l1, l2, l3⟩ := loop (g.parents p).zipIdx
        { g with children := Function.update g.children p (setAdd ci (g.children p)) } hlt (by
          intro q hq
          obtain ⟨q, i⟩ := q
          rw [mem_zipIdx_iff] at hq
          have := hlt p q (List.mem_of_getElem? hq)
          show q < fuel
          omega)
      refine ⟨hs.trans l1, ?_, fun h => l3 (hn h)⟩
      intro q x
      rw [l2]
      show x ∈ Function.update g.children p (setAdd ci (g.children p)) q ∨ _ ↔ _
      rw [hm]
      simp only [DetUp.same hs]
      constructor
      · rintro ((h | h) | ⟨⟨r, i⟩, hr, h⟩)
        · exact Or.inl h
        · exact Or.inr (Or.inl h)
        · rw [mem_zipIdx_iff] at hr
          rcases h with ⟨rfl, rfl⟩ | ⟨h, h'⟩
          · exact Or.inr (Or.inr ⟨.refl hk, hr⟩)
          · exact Or.inr (Or.inr ⟨.step hk (List.mem_of_getElem? hr) h, h'⟩)
      · rintro (h | h | ⟨h, h'⟩)
        · exact Or.inl (Or.inl h)
        · exact Or.inl (Or.inr h)
        · refine Or.inr ?_
          cases h with
          | refl _ => exact ⟨(q, x.2), (mem_zipIdx_iff _ _ _).2 h', Or.inl ⟨rfl, rfl⟩⟩
          | step _ m h =>
            obtain ⟨i, hi⟩ := List.getElem?_of_mem m
            exact ⟨(_, i), (mem_zipIdx_iff _ _ _).2 hi, Or.inr ⟨h, h'⟩⟩
    · rw [if_neg hk]
      refine ⟨hs, ?_, hn⟩
      intro q x
      show x ∈ Function.update g.children p (setAdd ci (g.children p)) q ↔ _
      rw [hm]
      constructor
      · tauto
      · rintro (h | h | ⟨h, _⟩)
        · exact Or.inl h
        · exact Or.inr h
        · exfalso
          cases h with
          | refl h => exact hk h
          | step h _ _ => exact hk h

/-! ### Registered edges -/

/-- The edges that are registered if the edges in `F` are: deterministic nodes pass the registration
on. -/
inductive Act (g : Graph M) (F : Nat → Nat → Prop) : Nat → Nat → Prop
  | forced {c i : Nat} : F c i → Act g F c i
  | up {c i d j : Nat} : (g.kind c).isDet = true → (g.parents d)[j]? = some c → Act g F d j → Act g F c i

/-- The children are exactly those. -/
def Reg (g : Graph M) (F : Nat → Nat → Prop) : Prop :=
  (∀ p, (g.children p).Nodup) ∧
  ∀ p c i, (c, i) ∈ g.children p ↔ (g.parents c)[i]? = some p ∧ Act g F c i

theorem Act.same {g g' : Graph M} (h : SameNodes g g') {F : Nat → Nat → Prop} {c i : Nat} :
    Act g' F c i ↔ Act g F c i := by
  constructor
  · intro d
    induction d with
    | forced f => exact .forced f
    | up k m _ ih => exact .up (by rw [h.kind] at k; exact k) (by rw [h.parents] at m; exact m) ih
  · intro d
    induction d with
    | forced f => exact .forced f
    | up k m _ ih => exact .up (by rw [h.kind]; exact k) (by rw [h.parents]; exact m) ih

theorem Act.mono {g : Graph M} {F F' : Nat → Nat → Prop} (h : ∀ c i, F c i → F' c i) {c i : Nat}
    (a : Act g F c i) : Act g F' c i := by
  induction a with
  | forced f => exact .forced (h _ _ f)
  | up k m _ ih => exact .up k m ih

theorem Act.detUp {g : Graph M} {F : Nat → Nat → Prop} {c i p x k : Nat} (a : Act g F c i)
    (hp : (g.parents c)[i]? = some p) (d : DetUp g p x) : Act g F x k := by
  induction d generalizing c i with
  | refl h => exact .up h hp a
  | step h m _ ih =>
    obtain ⟨j, hj⟩ := List.getElem?_of_mem m
    exact ih (Act.up (i := j) h hp a) hj

/-- Adding the edge `(c, i)`. -/
theorem Act.add_iff {g : Graph M} {F : Nat → Nat → Prop} {c i p : Nat}
    (hp : (g.parents c)[i]? = some p) (x k : Nat) :
    Act g (fun a b => F a b ∨ (a = c ∧ b = i)) x k ↔
      Act g F x k ∨ (x = c ∧ k = i) ∨ DetUp g p x := by
  constructor
  · intro a
    induction a with
    | forced f =>
      rcases f with f | f
      · exact Or.inl (.forced f)
      · exact Or.inr (Or.inl f)
    | up h m a ih =>
      rcases ih with ih | ⟨rfl, rfl⟩ | ih
      · exact Or.inl (.up h m ih)
      · rw [hp] at m
        obtain rfl := Option.some.inj m
        exact Or.inr (Or.inr (.refl h))
      · refine Or.inr (Or.inr ?_)
        clear hp a
        induction ih with
        | refl k => exact .step k (List.mem_of_getElem? m) (.refl h)
        | step k m' _ ih => exact .step k m' (ih m)
  · rintro (a | ⟨rfl, rfl⟩ | a)
    · exact a.mono fun _ _ => Or.inl
    · exact .forced (Or.inr ⟨rfl, rfl⟩)
    · exact Act.detUp (.forced (Or.inr ⟨rfl, rfl⟩)) hp a

/-- `_add_child` registers one more edge. -/
theorem addChild_reg {g : Graph M} {F : Nat → Nat → Prop} {fuel p c i : Nat}
    (hlt : ∀ n q, q ∈ g.parents n → q < n) (hf : p < fuel) (h : Reg g F)
    (hp : (g.parents c)[i]? = some p) :
    SameNodes g (addChild fuel p (c, i) g) ∧
    Reg (addChild fuel p (c, i) g) (fun a b => F a b ∨ (a = c ∧ b = i)) := by
  obtain ⟨h1, h2, h3⟩ := addChild_spec fuel p (c, i) g hlt hf
  refine ⟨h1, h3 h.1, ?_⟩
  intro q x k
  rw [h2, h.2, Act.same h1, h1.parents, Act.add_iff hp]
  constructor
  · rintro (⟨h, h'⟩ | ⟨rfl, e⟩ | ⟨h, h'⟩)
    · exact ⟨h, Or.inl h'⟩
    · obtain ⟨rfl, rfl⟩ := Prod.mk.inj e
      exact ⟨hp, Or.inr (Or.inl ⟨rfl, rfl⟩)⟩
    · exact ⟨h', Or.inr (Or.inr h)⟩
  · rintro ⟨h, h' | ⟨rfl, rfl⟩ | h'⟩
    · exact Or.inl ⟨h, h'⟩
    · rw [hp] at h
      exact Or.inr (Or.inl ⟨(Option.some.inj h).symm, rfl⟩)
    · exact Or.inr (Or.inr ⟨h', h⟩)

theorem Act.congr {g : Graph M} {F F' : Nat → Nat → Prop}
    (h : ∀ c i p, (g.parents c)[i]? = some p → (F c i → F' c i)) {c i p : Nat}
    (hp : (g.parents c)[i]? = some p) (a : Act g F c i) : Act g F' c i := by
  induction a generalizing p with
  | forced f => exact .forced (h _ _ _ hp f)
  | up k m _ ih => exact .up k m (ih m)

theorem Reg.congr {g : Graph M} {F F' : Nat → Nat → Prop}
    (h : ∀ c i p, (g.parents c)[i]? = some p → (F c i ↔ F' c i)) (r : Reg g F) : Reg g F' := by
  refine ⟨r.1, ?_⟩
  intro p c i
  rw [r.2]
  constructor
  · rintro ⟨hp, a⟩; exact ⟨hp, a.congr (fun c i p hp => (h c i p hp).1) hp⟩
  · rintro ⟨hp, a⟩; exact ⟨hp, a.congr (fun c i p hp => (h c i p hp).2) hp⟩

/-! ### Removal -/

/-- An edge leading to a node above `p`, or to `p` itself and different from `(c, i)`, does not depend
on the edge `(c, i)` to `p`. -/
theorem Act.remove_above {g : Graph M} {F : Nat → Nat → Prop} {c i p : Nat}
    (hlt : ∀ n q, q ∈ g.parents n → q < n)
    (hc : (g.kind c).isDet = true → ∀ d j, (g.parents d)[j]? = some c → ¬ Act g F d j)
    (hp : (g.parents c)[i]? = some p) {x k q : Nat} (a : Act g F x k)
    (hq : (g.parents x)[k]? = some q) (hpq : p ≤ q) (hne : ¬ (x = c ∧ k = i)) :
    Act g (fun a b => F a b ∧ ¬ (a = c ∧ b = i)) x k := by
  induction a generalizing q with
  | forced f => exact .forced ⟨f, hne⟩
  | up h m a ih =>
    rename_i x k d j
    have hx : q < x := hlt _ _ (List.mem_of_getElem? hq)
    have : ¬ (d = c ∧ j = i) := by
      rintro ⟨rfl, rfl⟩
      rw [hp] at m
      have := Option.some.inj m
      omega
    exact .up h m (ih m (by omega) this)

/-- An edge leading to a node that `p` does not pass its registration to. -/
theorem Act.remove_of_not_det {g : Graph M} {F : Nat → Nat → Prop} {c i p : Nat}
    (hc : (g.kind p).isDet = true → ∃ d j, (g.parents d)[j]? = some p ∧
      Act g (fun a b => F a b ∧ ¬ (a = c ∧ b = i)) d j)
    (hp : (g.parents c)[i]? = some p) {x k : Nat} (a : Act g F x k) (hne : ¬ (x = c ∧ k = i)) :
    Act g (fun a b => F a b ∧ ¬ (a = c ∧ b = i)) x k := by
  induction a with
  | forced f => exact .forced ⟨f, hne⟩
  | up h m a ih =>
    rename_i x k d j
    by_cases e : d = c ∧ j = i
    · obtain ⟨rfl, rfl⟩ := e
      rw [hp] at m
      obtain rfl := Option.some.inj m
      obtain ⟨d', j', m', a'⟩ := hc h
      exact .up h m' a'
    · exact .up h m (ih e)

/-- An edge of a node without active children is active only if it is forced. -/
theorem Act.forced_of {g : Graph M} {F : Nat → Nat → Prop} {c i : Nat}
    (hc : (g.kind c).isDet = true → ∀ d j, (g.parents d)[j]? = some c → ¬ Act g F d j)
    (a : Act g F c i) : F c i := by
  cases a with
  | forced f => exact f
  | up h m a => exact absurd a (hc h _ _ m)

theorem Act.not_removed {g : Graph M} {F : Nat → Nat → Prop} {c i : Nat}
    (hc : (g.kind c).isDet = true → ∀ d j, (g.parents d)[j]? = some c → ¬ Act g F d j) :
    ¬ Act g (fun a b => F a b ∧ ¬ (a = c ∧ b = i)) c i := by
  intro a
  have := Act.forced_of (fun h d j m a => hc h d j m (a.mono fun _ _ f => f.1)) a
  exact this.2 ⟨rfl, rfl⟩

theorem forEach_nil {σ α : Type _} (f : α → Py σ Unit) (s : σ) : forEach f [] s = (.ok (), s) := rfl

theorem forEach_cons_ok {σ α : Type _} (f : α → Py σ Unit) (a : α) (l : List α) (s s' : σ)
    (h : f a s = (.ok (), s')) : forEach f (a :: l) s = forEach f l s' := by
  show (f a >>= fun _ => forEach f l) s = _
  rw [Py.bind_ok h]

theorem forEach_cons_error {σ α : Type _} (f : α → Py σ Unit) (a : α) (l : List α) (s s' : σ)
    (e : PyErr) (h : f a s = (.error e, s')) : forEach f (a :: l) s = (.error e, s') := by
  show (f a >>= fun _ => forEach f l) s = _
  rw [Py.bind_error h]

/-- `_remove_child` unregisters one edge. -/
theorem removeChild_reg (fuel : Nat) : ∀ (p c i : Nat) (g : Graph M) (F : Nat → Nat → Prop),
    (∀ n q, q ∈ g.parents n → q < n) → p < fuel → Reg g F → (g.parents c)[i]? = some p → F c i →
    ((g.kind c).isDet = true → ∀ d j, (g.parents d)[j]? = some c → ¬ Act g F d j) →
    (∀ x k, F x k → (g.kind x).isDet = true → c ≤ x) →
    ∃ g', removeChild fuel p (c, i) g = (.ok (), g') ∧ SameNodes g g' ∧
      Reg g' (fun a b => F a b ∧ ¬ (a = c ∧ b = i)) := by
  induction fuel with
  | zero => intro p c i g F _ h; omega
  | succ fuel ih =>
    intro p c i g F hlt hf hr hp hF hc hge
    -- the loop removing all edges of a node without children
    have loop : ∀ (L : List (Nat × Nat)) (g : Graph M) (F : Nat → Nat → Prop),
        (∀ n q, q ∈ g.parents n → q < n) → Reg g F → L.Nodup →
        (∀ q ∈ L, (g.parents p)[q.2]? = some q.1 ∧ q.1 < fuel ∧ F p q.2) →
        (∀ d j, (g.parents d)[j]? = some p → ¬ Act g F d j) →
        (∀ x k, F x k → (g.kind x).isDet = true → p ≤ x) →
        ∃ g', forEach (fun q : Nat × Nat => removeChild fuel q.1 (p, q.2)) L g = (.ok (), g') ∧
          SameNodes g g' ∧ Reg g' (fun a b => F a b ∧ ¬ (a = p ∧ ∃ q ∈ L, q.2 = b)) := by
      intro L
      induction L with
      | nil =>
        intro g F _ h _ _ _ _
        refine ⟨g, rfl, SameNodes.refl g, ?_⟩
        simpa using h
      | cons r L ihL =>
        intro g F hlt hr hnd hL hno hge
        obtain ⟨r1, r2, r3⟩ := hL r (by simp)
        obtain ⟨g', e1, s1, reg1⟩ := ih r.1 p r.2 g F hlt r2 hr r1 r3 (fun _ => hno) hge
        rw [List.nodup_cons] at hnd
        obtain ⟨g'', e2, s2, reg2⟩ := ihL g' _ (by rw [s1.parents]; exact hlt) reg1 hnd.2 (by
            intro q hq
            obtain ⟨q1, q2, q3⟩ := hL q (List.mem_cons_of_mem _ hq)
            refine ⟨by rw [s1.parents]; exact q1, q2, q3, ?_⟩
            rintro ⟨_, e⟩
            rw [e, r1] at q1
            have : q = r := Prod.ext (Option.some.inj q1).symm e
            rw [this] at hq
            exact hnd.1 hq) (by
            intro d j m
            rw [s1.parents] at m
            rw [Act.same s1]
            intro a
            exact hno d j m (a.mono fun _ _ f => f.1))
          (fun x k f hx => hge x k f.1 (by rw [s1.kind] at hx; exact hx))
        refine ⟨g'', ?_, s1.trans s2, ?_⟩
        · rw [forEach_cons_ok (fun q : Nat × Nat => removeChild fuel q.1 (p, q.2)) r L g g' e1, e2]
        · refine reg2.congr ?_
          intro a b _ _
          simp only [List.mem_cons, exists_eq_or_imp]
          constructor
          · rintro ⟨⟨h, h1⟩, h2⟩
            refine ⟨h, ?_⟩
            rintro ⟨rfl, h3 | h3⟩
            · exact h1 ⟨rfl, h3.symm⟩
            · exact h2 ⟨rfl, h3⟩
          · rintro ⟨h, h1⟩
            refine ⟨⟨h, ?_⟩, ?_⟩
            · rintro ⟨rfl, rfl⟩; exact h1 ⟨rfl, Or.inl rfl⟩
            · rintro ⟨rfl, h3⟩; exact h1 ⟨rfl, Or.inr h3⟩
    have hmem : (c, i) ∈ g.children p := (hr.2 p c i).2 ⟨hp, .forced hF⟩
    have hs : SameNodes g { g with
      children := Function.update g.children p ((g.children p).erase (c, i)) } := rfl
    have hme : ∀ q x, x ∈ Function.update g.children p ((g.children p).erase (c, i)) q ↔
        x ∈ g.children q ∧ ¬ (q = p ∧ x = (c, i)) := by
      intro q x
      by_cases hq : q = p
      · subst hq; rw [Function.update_self, (hr.1 q).mem_erase_iff]; tauto
      · rw [Function.update_of_ne hq]; tauto
    have hn : ∀ q, (Function.update g.children p ((g.children p).erase (c, i)) q).Nodup := by
      intro q
      by_cases hq : q = p
      · subst hq; rw [Function.update_self]; exact (hr.1 q).erase _
      · rw [Function.update_of_ne hq]; exact hr.1 q
    unfold removeChild
    rw [if_pos hmem]
    have hch : Function.update g.children p ((g.children p).erase (c, i)) p =
        (g.children p).erase (c, i) := Function.update_self ..
    by_cases hk : (g.kind p).isDet = true ∧
        (Function.update g.children p ((g.children p).erase (c, i)) p).length = 0
    · simp only [if_pos hk]
      -- all children of `p` are gone
      have hno : ∀ d j, (g.parents d)[j]? = some p → Act g F d j → d = c ∧ j = i := by
        intro d j m a
        by_contra hne
        have : (d, j) ∈ Function.update g.children p ((g.children p).erase (c, i)) p := by
          rw [hme]
          refine ⟨(hr.2 p d j).2 ⟨m, a⟩, ?_⟩
          rintro ⟨_, e⟩
          obtain ⟨rfl, rfl⟩ := Prod.mk.inj e
          exact hne ⟨rfl, rfl⟩
        rw [List.length_eq_zero_iff.1 hk.2] at this
        simp at this
      -- the edges of `p` are now registered without a reason
      have hreg : Reg { g with
          children := Function.update g.children p ((g.children p).erase (c, i)) }
          (fun a b => (F a b ∧ ¬ (a = c ∧ b = i)) ∨ a = p) := by
        refine ⟨hn, ?_⟩
        intro q x k
        show (x, k) ∈ Function.update g.children p ((g.children p).erase (c, i)) q ↔ _
        rw [hme, hr.2, Act.same hs]
        show _ ↔ (g.parents x)[k]? = some q ∧ _
        constructor
        · rintro ⟨⟨h, a⟩, hne⟩
          refine ⟨h, ?_⟩
          have hne' : ¬ (x = c ∧ k = i) := by
            rintro ⟨rfl, rfl⟩
            rw [hp] at h
            exact hne ⟨(Option.some.inj h).symm, rfl⟩
          clear hne h
          induction a with
          | forced f => exact .forced (Or.inl ⟨f, hne'⟩)
          | up h m a ih' =>
            rename_i x k d j
            by_cases e : d = c ∧ j = i
            · obtain ⟨rfl, rfl⟩ := e
              rw [hp] at m
              obtain rfl := Option.some.inj m
              exact .forced (Or.inr rfl)
            · exact .up h m (ih' e)
        · rintro ⟨h, a⟩
          have key : ∀ x k, Act g (fun a b => (F a b ∧ ¬ (a = c ∧ b = i)) ∨ a = p) x k →
              Act g F x k ∧ ((x = c ∧ k = i) → False) := by
            intro x k a
            induction a with
            | forced f =>
              rename_i a b
              rcases f with f | rfl
              · exact ⟨.forced f.1, f.2⟩
              · refine ⟨.up hk.1 hp (.forced hF), ?_⟩
                rintro ⟨rfl, rfl⟩
                have := hlt _ _ (List.mem_of_getElem? hp)
                omega
            | up h m a ih' =>
              rename_i x k d j
              refine ⟨.up h m ih'.1, ?_⟩
              rintro ⟨rfl, rfl⟩
              exact hc h _ _ m ih'.1
          obtain ⟨a1, a2⟩ := key x k a
          refine ⟨⟨h, a1⟩, ?_⟩
          rintro ⟨_, e⟩
          exact a2 (Prod.mk.inj e)
      obtain ⟨g', e, s', reg'⟩ := loop (g.parents p).zipIdx { g with
          children := Function.update g.children p ((g.children p).erase (c, i)) }
          (fun a b => (F a b ∧ ¬ (a = c ∧ b = i)) ∨ a = p) hlt hreg
        (List.Nodup.of_map Prod.snd (by
          rw [List.zipIdx_map_snd]
          exact List.nodup_range' ..)) (by
        rintro ⟨q, k⟩ hq
        rw [mem_zipIdx_iff] at hq
        refine ⟨hq, ?_, Or.inr rfl⟩
        have := hlt p q (List.mem_of_getElem? hq)
        show q < fuel
        omega) (by
        intro d j m a
        rw [Act.same hs] at a
        have m' : (g.parents d)[j]? = some p := m
        have h3 : Reg _ _ := hreg
        have : (d, j) ∈ Function.update g.children p ((g.children p).erase (c, i)) p :=
          (hreg.2 p d j).2 ⟨m', by rw [Act.same hs]; exact a⟩
        rw [List.length_eq_zero_iff.1 hk.2] at this
        simp at this) (by
        rintro x k (f | rfl) hx
        · have := hge x k f.1 hx
          have := hlt _ _ (List.mem_of_getElem? hp)
          omega
        · exact le_rfl)
      refine ⟨g', e, hs.trans s', ?_⟩
      refine reg'.congr ?_
      intro a b q hq
      rw [s'.parents] at hq
      have hq' : (g.parents a)[b]? = some q := hq
      constructor
      · rintro ⟨h | rfl, h'⟩
        · exact h
        · exact absurd ⟨rfl, (q, b), (mem_zipIdx_iff _ _ _).2 hq', rfl⟩ h'
      · rintro h
        refine ⟨Or.inl h, ?_⟩
        rintro ⟨rfl, _⟩
        have := hge _ _ h.1 hk.1
        have := hlt _ _ (List.mem_of_getElem? hp)
        omega
    · simp only [if_neg hk]
      refine ⟨_, rfl, hs, hn, ?_⟩
      intro q x k
      show (x, k) ∈ Function.update g.children p ((g.children p).erase (c, i)) q ↔ _
      rw [hme, hr.2, Act.same hs]
      show _ ↔ (g.parents x)[k]? = some q ∧ _
      constructor
      · rintro ⟨⟨h, a⟩, hne⟩
        have hne' : ¬ (x = c ∧ k = i) := by
          rintro ⟨rfl, rfl⟩
          rw [hp] at h
          exact hne ⟨(Option.some.inj h).symm, rfl⟩
        refine ⟨h, Act.remove_of_not_det ?_ hp a hne'⟩
        intro hdet
        have hlen : (Function.update g.children p ((g.children p).erase (c, i)) p).length ≠ 0 :=
          fun e => hk ⟨hdet, e⟩
        obtain ⟨⟨d, j⟩, hd⟩ := List.exists_mem_of_length_pos (Nat.pos_of_ne_zero hlen)
        rw [hme, hr.2] at hd
        refine ⟨d, j, hd.1.1, Act.remove_above hlt hc hp hd.1.2 hd.1.1 le_rfl ?_⟩
        rintro ⟨rfl, rfl⟩
        exact hd.2 ⟨rfl, rfl⟩
      · rintro ⟨h, a⟩
        refine ⟨⟨h, a.mono fun _ _ f => f.1⟩, ?_⟩
        rintro ⟨_, e⟩
        obtain ⟨rfl, rfl⟩ := Prod.mk.inj e
        exact Act.not_removed hc a

end Verif
