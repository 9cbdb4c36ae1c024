import Verif.Lemmas.Built

/-! # Lemmas on the removal of nodes -/

namespace Verif

open Spec (Built ValidNode)

variable {M : Type _}

/-- Nothing but the sets of children changes, and they only lose elements. -/
def Shrinks (g g' : Graph M) : Prop :=
  SameNodes g g' ∧ ∀ p, (g'.children p).Sublist (g.children p)

theorem Shrinks.refl (g : Graph M) : Shrinks g g := ⟨SameNodes.refl g, fun _ => List.Sublist.refl _⟩

theorem Shrinks.trans {a b c : Graph M} (h : Shrinks a b) (h' : Shrinks b c) : Shrinks a c :=
  ⟨h.1.trans h'.1, fun p => (h'.2 p).trans (h.2 p)⟩

theorem forEach_shrinks {α : Type _} (f : α → Py (Graph M) Unit)
    (hf : ∀ a g, Shrinks g (f a g).2) (l : List α) (g : Graph M) : Shrinks g (forEach f l g).2 := by
  induction l generalizing g with
  | nil => exact Shrinks.refl g
  | cons a l ih =>
    have h := hf a g
    rcases e : f a g with ⟨(err | ⟨⟩), g'⟩
    · rw [forEach_cons_error f a l g g' err e]
      rw [e] at h; exact h
    · rw [forEach_cons_ok f a l g g' e]
      rw [e] at h
      exact h.trans (ih g')

theorem removeChild_shrinks (fuel : Nat) : ∀ (p : Nat) (ci : Nat × Nat) (g : Graph M),
    Shrinks g (removeChild fuel p ci g).2 := by
  induction fuel with
  | zero => intro p ci g; exact Shrinks.refl g
  | succ fuel ih =>
    intro p ci g
    have h0 : Shrinks g { g with
        children := Function.update g.children p ((g.children p).erase ci) } := by
      refine ⟨rfl, ?_⟩
      intro q
      by_cases hq : q = p
      · subst hq
        show (Function.update g.children q ((g.children q).erase ci) q).Sublist _
        rw [Function.update_self]
        exact List.erase_sublist
      · show (Function.update g.children p ((g.children p).erase ci) q).Sublist _
        rw [Function.update_of_ne hq]
    unfold removeChild
    by_cases hm : ci ∈ g.children p
    · rw [if_pos hm]
      simp only []
      split
      · exact h0.trans (forEach_shrinks _ (fun (a : Nat × Nat) g => ih a.1 (p, a.2) g) _ _)
      · exact h0
    · rw [if_neg hm]
      exact Shrinks.refl g

/-- A successful removal removes. -/
theorem removeChild_not_mem {fuel p : Nat} {ci : Nat × Nat} {g g' : Graph M}
    (hn : (g.children p).Nodup) (h : removeChild fuel p ci g = (.ok (), g')) :
    ci ∉ g'.children p := by
  cases fuel with
  | zero => cases h
  | succ fuel =>
    unfold removeChild at h
    by_cases hm : ci ∈ g.children p
    · rw [if_pos hm] at h
      simp only [] at h
      have h0 : ci ∉ Function.update g.children p ((g.children p).erase ci) p := by
        rw [Function.update_self, hn.mem_erase_iff]
        tauto
      split at h
      · have := forEach_shrinks (fun q : Nat × Nat => removeChild fuel q.1 (p, q.2))
          (fun a g => removeChild_shrinks fuel a.1 (p, a.2) g) (g.parents p).zipIdx
          { g with children := Function.update g.children p ((g.children p).erase ci) }
        rw [h] at this
        intro hc
        exact h0 ((this.2 p).subset hc)
      · obtain ⟨_, rfl⟩ := Prod.mk.inj h
        exact h0
    · rw [if_neg hm] at h
      cases h

theorem removeEdges_not_mem {fuel c : Nat} : ∀ (L : List (Nat × Nat)) (g g' : Graph M),
    (∀ p, (g.children p).Nodup) →
    forEach (fun q : Nat × Nat => removeChild fuel q.1 (c, q.2)) L g = (.ok (), g') →
    ∀ q ∈ L, (c, q.2) ∉ g'.children q.1 := by
  intro L
  induction L with
  | nil => intro g g' _ _ q hq; simp at hq
  | cons r L ih =>
    intro g g' hn h q hq
    have hs := removeChild_shrinks fuel r.1 (c, r.2) g
    rcases e : removeChild fuel r.1 (c, r.2) g with ⟨(err | ⟨⟩), g1⟩
    · rw [forEach_cons_error (fun q : Nat × Nat => removeChild fuel q.1 (c, q.2)) r L g g1 err e] at h
      cases h
    · rw [forEach_cons_ok (fun q : Nat × Nat => removeChild fuel q.1 (c, q.2)) r L g g1 e] at h
      rw [e] at hs
      rcases List.mem_cons.1 hq with rfl | hq
      · have h1 := removeChild_not_mem (hn _) e
        have h2 := forEach_shrinks (fun q : Nat × Nat => removeChild fuel q.1 (c, q.2))
          (fun a g => removeChild_shrinks fuel a.1 (c, a.2) g) L g1
        rw [h] at h2
        exact fun hc => h1 ((h2.2 _).subset hc)
      · exact ih g1 g' (fun p => (hn p).sublist (hs.2 p)) h q hq

/-- The children of younger nodes do not change. -/
theorem forEach_frame {α : Type _} (f : α → Py (Graph M) Unit) (P : Graph M → Prop) (q : Nat)
    (l : List α) (hP : ∀ a ∈ l, ∀ g, P g → P (f a g).2 ∧ (f a g).2.children q = g.children q)
    (g : Graph M) (hg : P g) : (forEach f l g).2.children q = g.children q := by
  induction l generalizing g with
  | nil => rfl
  | cons a l ih =>
    obtain ⟨h1, h2⟩ := hP a (by simp) g hg
    rcases e : f a g with ⟨(err | ⟨⟩), g'⟩
    · rw [forEach_cons_error f a l g g' err e]
      rw [e] at h2; exact h2
    · rw [forEach_cons_ok f a l g g' e]
      rw [e] at h1 h2
      rw [ih (fun a ha => hP a (List.mem_cons_of_mem _ ha)) g' h1]
      exact h2

theorem removeChild_frame (fuel : Nat) : ∀ (p : Nat) (ci : Nat × Nat) (g : Graph M) (q : Nat),
    (∀ n q, q ∈ g.parents n → q < n) → p < q →
    (removeChild fuel p ci g).2.children q = g.children q := by
  induction fuel with
  | zero => intro p ci g q _ _; rfl
  | succ fuel ih =>
    intro p ci g q hlt hpq
    have h0 : Function.update g.children p ((g.children p).erase ci) q = g.children q :=
      Function.update_of_ne (by omega) _ _
    unfold removeChild
    by_cases hm : ci ∈ g.children p
    · rw [if_pos hm]
      simp only []
      split
      · rw [forEach_frame _ (fun g' => g'.parents = g.parents) q]
        · exact h0
        · rintro ⟨r, i⟩ hr g' hg'
          rw [mem_zipIdx_iff] at hr
          have hlt' := hlt _ _ (List.mem_of_getElem? hr)
          refine ⟨?_, ih r _ g' q (by rw [hg']; exact hlt) (by omega)⟩
          rw [(removeChild_shrinks fuel r _ g').1.parents, hg']
        · rfl
      · exact h0
    · rw [if_neg hm]

/-- Removing all edges of a stochastic node. -/
theorem removeEdges_reg {n fuel : Nat} : ∀ (L : List (Nat × Nat)) (g : Graph M)
    (F : Nat → Nat → Prop), (∀ n q, q ∈ g.parents n → q < n) → n ≤ fuel → Reg g F →
    (g.kind n).isDet = false → (∀ x k, F x k → (g.kind x).isDet = false) → L.Nodup →
    (∀ q ∈ L, (g.parents n)[q.2]? = some q.1 ∧ F n q.2) →
    ∃ g', forEach (fun q : Nat × Nat => removeChild fuel q.1 (n, q.2)) L g = (.ok (), g') ∧
      SameNodes g g' ∧ Reg g' (fun a b => F a b ∧ ¬ (a = n ∧ ∃ q ∈ L, q.2 = b)) := by
  intro L
  induction L with
  | nil =>
    intro g F _ _ r _ _ _ _
    exact ⟨g, rfl, SameNodes.refl g, by simpa using r⟩
  | cons r L ih =>
    intro g F hlt hf hr hk hF hnd hL
    obtain ⟨r1, r2⟩ := hL r (by simp)
    obtain ⟨g', e1, s1, reg1⟩ := removeChild_reg fuel r.1 n r.2 g F hlt
      (by have := hlt _ _ (List.mem_of_getElem? r1); omega) hr r1 r2
      (fun h => by rw [hk] at h; simp at h)
      (fun x k f h => by rw [hF x k f] at h; simp at h)
    rw [List.nodup_cons] at hnd
    obtain ⟨g'', e2, s2, reg2⟩ := ih g' _ (by rw [s1.parents]; exact hlt) hf reg1
      (by rw [s1.kind]; exact hk) (fun x k f => by rw [s1.kind]; exact hF x k f.1) hnd.2 (by
        intro q hq
        obtain ⟨q1, q2⟩ := hL q (List.mem_cons_of_mem _ hq)
        refine ⟨by rw [s1.parents]; exact q1, q2, ?_⟩
        rintro ⟨_, e⟩
        rw [e, r1] at q1
        have : q = r := Prod.ext (Option.some.inj q1).symm e
        rw [this] at hq
        exact hnd.1 hq)
    refine ⟨g'', ?_, s1.trans s2, ?_⟩
    · rw [forEach_cons_ok (fun q : Nat × Nat => removeChild fuel q.1 (n, q.2)) r L g g' e1, e2]
    · refine reg2.congr ?_
      intro a b _ _
      simp only [List.mem_cons, exists_eq_or_imp]
      constructor
      · rintro ⟨⟨h, h1⟩, h2⟩
        refine ⟨h, ?_⟩
        rintro ⟨rfl, h3 | h3⟩
        · exact h1 ⟨rfl, h3.symm⟩
        · exact h2 ⟨rfl, h3⟩
      · rintro ⟨h, h1⟩
        refine ⟨⟨h, ?_⟩, ?_⟩
        · rintro ⟨rfl, rfl⟩; exact h1 ⟨rfl, Or.inl rfl⟩
        · rintro ⟨rfl, h3⟩; exact h1 ⟨rfl, Or.inr h3⟩

theorem deleteLoop_shrinks (del : Nat → Py (Graph M) Unit) (hd : ∀ c g, Shrinks g (del c g).2)
    (n size : Nat) (cs : List (Nat × Nat)) (g : Graph M) :
    Shrinks g (deleteLoop del n size cs g).2 := by
  induction cs generalizing g with
  | nil =>
    unfold deleteLoop
    split <;> exact Shrinks.refl g
  | cons ci cs ih =>
    obtain ⟨c, i⟩ := ci
    unfold deleteLoop
    split
    · exact Shrinks.refl g
    · have h := hd c g
      rcases e : del c g with ⟨(err | ⟨⟩), g'⟩
      · rw [e] at h; exact h
      · rw [e] at h; exact h.trans (ih g')

theorem delete_succ (fuel n : Nat) (g : Graph M) :
    delete (fuel + 1) n g =
      match forEach (fun q : Nat × Nat => removeChild g.size q.1 (n, q.2)) (g.parents n).zipIdx g with
      | (.error e, g') => (.error e, g')
      | (.ok _, g') =>
        deleteLoop (delete fuel) n (g'.children n).length (g'.children n) g' := by
  show ((Py.get : Py (Graph M) (Graph M)) >>= _) g = _
  rw [Py.bind_get]
  rcases e : forEach (fun q : Nat × Nat => removeChild g.size q.1 (n, q.2)) (g.parents n).zipIdx g
    with ⟨(err | ⟨⟩), g'⟩
  · rw [Py.bind_error e]
  · rw [Py.bind_ok e, Py.bind_get]

theorem delete_shrinks (fuel : Nat) : ∀ (n : Nat) (g : Graph M), Shrinks g (delete fuel n g).2 := by
  induction fuel with
  | zero => intro n g; exact Shrinks.refl g
  | succ fuel ih =>
    intro n g
    rw [delete_succ]
    have h := forEach_shrinks (fun q : Nat × Nat => removeChild g.size q.1 (n, q.2))
      (fun a g' => removeChild_shrinks g.size a.1 (n, a.2) g') (g.parents n).zipIdx g
    rcases e : forEach (fun q : Nat × Nat => removeChild g.size q.1 (n, q.2)) (g.parents n).zipIdx g
      with ⟨(err | ⟨⟩), g'⟩
    · rw [e] at h; exact h
    · rw [e] at h
      exact h.trans (deleteLoop_shrinks _ ih _ _ _ _)

/-- After a successful `delete` the node is not a child of any of its parents. -/
theorem delete_not_mem {fuel c i p : Nat} {g g' : Graph M} (hn : ∀ p, (g.children p).Nodup)
    (hp : (g.parents c)[i]? = some p) (h : delete fuel c g = (.ok (), g')) :
    (c, i) ∉ g'.children p := by
  cases fuel with
  | zero => cases h
  | succ fuel =>
    rw [delete_succ] at h
    have hs := forEach_shrinks (fun q : Nat × Nat => removeChild g.size q.1 (c, q.2))
      (fun a g' => removeChild_shrinks g.size a.1 (c, a.2) g') (g.parents c).zipIdx g
    rcases e : forEach (fun q : Nat × Nat => removeChild g.size q.1 (c, q.2)) (g.parents c).zipIdx g
      with ⟨(err | ⟨⟩), g1⟩
    · rw [e] at h; cases h
    · rw [e] at h
      have h1 := removeEdges_not_mem _ g g1 hn e (p, i) ((mem_zipIdx_iff _ _ _).2 hp)
      have h2 := deleteLoop_shrinks _ (delete_shrinks fuel) c (g1.children c).length
        (g1.children c) g1
      simp only [] at h
      rw [h] at h2
      exact fun hc => h1 ((h2.2 p).subset hc)

/-- Deleting a node with a registered child raises. -/
theorem delete_children_error {fuel n : Nat} {g : Graph M} (w : GraphWf g)
    {F : Nat → Nat → Prop} (r : Reg g F) (hc : g.children n ≠ []) :
    ∃ e, (delete fuel n g).1 = .error e := by
  cases fuel with
  | zero => exact ⟨_, rfl⟩
  | succ fuel =>
    rw [delete_succ]
    have hs := forEach_shrinks (fun q : Nat × Nat => removeChild g.size q.1 (n, q.2))
      (fun a g' => removeChild_shrinks g.size a.1 (n, a.2) g') (g.parents n).zipIdx g
    have hfr : (forEach (fun q : Nat × Nat => removeChild g.size q.1 (n, q.2))
        (g.parents n).zipIdx g).2.children n = g.children n := by
      refine forEach_frame _ (fun g' => g'.parents = g.parents) n _ ?_ g rfl
      rintro ⟨q, i⟩ hq g' hg'
      rw [mem_zipIdx_iff] at hq
      refine ⟨?_, removeChild_frame _ _ _ _ _ (by rw [hg']; exact w.parents_lt)
        (w.parents_lt _ _ (List.mem_of_getElem? hq))⟩
      rw [(removeChild_shrinks _ _ _ _).1.parents, hg']
    rcases e : forEach (fun q : Nat × Nat => removeChild g.size q.1 (n, q.2)) (g.parents n).zipIdx g
      with ⟨(err | ⟨⟩), g1⟩
    · exact ⟨err, rfl⟩
    · rw [e] at hs hfr
      simp only [] at hfr ⊢
      rw [hfr]
      obtain ⟨⟨c, i⟩, cs, hcs⟩ := List.exists_cons_of_ne_nil hc
      rw [hcs]
      unfold deleteLoop
      rw [if_neg (by rw [hfr, hcs]; simp)]
      rcases e2 : delete fuel c g1 with ⟨(err | ⟨⟩), g2⟩
      · exact ⟨err, rfl⟩
      · simp only []
        have hmem : (c, i) ∈ g.children n := by rw [hcs]; simp
        have hp := ((r.2 n c i).1 hmem).1
        have hnd1 : ∀ p, (g1.children p).Nodup := fun p => (r.1 p).sublist (hs.2 p)
        have hnm := delete_not_mem hnd1 (by rw [hs.1.parents]; exact hp) e2
        have hsub := (delete_shrinks fuel c g1).2 n
        rw [e2] at hsub
        simp only [] at hsub
        have hlen : (g2.children n).length ≠ ((c, i) :: cs).length := by
          intro hl
          have : g2.children n = g1.children n := hsub.eq_of_length (by rw [hl, hfr, hcs])
          rw [this, hfr] at hnm
          exact hnm hmem
        refine ⟨.runtimeError, ?_⟩
        cases cs with
        | nil => unfold deleteLoop; rw [if_pos hlen]
        | cons d cs => unfold deleteLoop; rw [if_pos hlen]

end Verif
