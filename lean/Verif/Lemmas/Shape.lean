import Verif.Spec.Shape
import Verif.Model.Shape

/-! # Helper lemmas about shapes -/

namespace Verif
open Spec

theorem axisLen_of_ge {s : List Nat} {k : Nat} (h : s.length ≤ k) : axisLen s k = 1 := by
  have : s.reverse[k]? = none := by
    apply List.getElem?_eq_none; simpa using h
  simp [axisLen, this]

theorem negIdx_eq {a : List Nat} {k : Nat} (h : k < a.length) :
    negIdx a (k + 1) = .ok (axisLen a k) := by
  have h1 : k + 1 ≤ a.length := h
  have h2 : a.length - (k + 1) < a.length := by omega
  have h3 : a.reverse[k]? = some a[a.length - (k+1)] := by
    rw [List.getElem?_reverse h]
    rw [List.getElem?_eq_getElem (by omega)]
    congr 2
    omega
  simp [negIdx, h1, axisLen, h3, List.getElem?_eq_getElem h2]

/-- The inner step only depends on the axis length. -/
def mergeLen (s x : Nat) : Except PyErr Nat :=
  if s = 1 then .ok x else if x ≠ 1 ∧ x ≠ s then .error .valueError else .ok s

theorem bcastAxisStep_eq (k s : Nat) (a : List Nat) :
    bcastAxisStep (k + 1) s a = mergeLen s (axisLen a k) := by
  unfold bcastAxisStep
  by_cases h : k + 1 ≤ a.length
  · rw [if_pos h, negIdx_eq h]
    rfl
  · rw [if_neg h, axisLen_of_ge (by omega)]
    unfold mergeLen
    split <;> simp_all [pure, Except.pure]

theorem mergeLen_ok {s x v : Nat} :
    mergeLen s x = .ok v ↔ (s = 1 ∨ s = v) ∧ (x = 1 ∨ x = v) ∧ (v = s ∨ v = x) := by
  unfold mergeLen
  split
  · simp; omega
  · split
    · simp; omega
    · simp; omega

theorem foldlM_merge {β : Type} (f : β → Nat) (l : List β) (s0 v : Nat) :
    l.foldlM (fun s a => mergeLen s (f a)) s0 = Except.ok v ↔
      (s0 = 1 ∨ s0 = v) ∧ (∀ a ∈ l, f a = 1 ∨ f a = v) ∧ (v = s0 ∨ ∃ a ∈ l, f a = v) := by
  induction l generalizing s0 with
  | nil => simp [pure, Except.pure]; omega
  | cons a l ih =>
    rw [List.foldlM_cons]
    cases h : mergeLen s0 (f a) with
    | error e =>
      simp only [bind, Except.bind]
      constructor
      · intro h; cases h
      · rintro ⟨h1, h2, h3⟩
        exfalso
        have ha := h2 a (by simp)
        clear h3
        unfold mergeLen at h
        split at h
        · cases h
        · split at h
          · omega
          · cases h
    | ok w =>
      simp only [bind, Except.bind]
      rw [ih]
      have hw := mergeLen_ok.1 h
      constructor
      · rintro ⟨h1, h2, h3⟩
        refine ⟨by clear h3; omega, ?_, ?_⟩
        · intro b hb
          rcases List.mem_cons.1 hb with rfl | hb
          · clear h3; omega
          · exact h2 b hb
        · rcases h3 with h3 | ⟨b, hb, h3⟩
          · rcases hw.2.2 with h4 | h4
            · left; omega
            · right; exact ⟨a, by simp, by omega⟩
          · right; exact ⟨b, by simp [hb], h3⟩
      · rintro ⟨h1, h2, h3⟩
        have ha := h2 a (by simp)
        refine ⟨by clear h3; omega, fun b hb => h2 b (by simp [hb]), ?_⟩
        rcases h3 with h3 | ⟨b, hb, h3⟩
        · left; omega
        · rcases List.mem_cons.1 hb with rfl | hb
          · left; omega
          · right; exact ⟨b, hb, h3⟩

theorem bcastAxis_ok (shapes : List (List Nat)) (k v : Nat) :
    bcastAxis shapes (k + 1) = .ok v ↔
      (∀ s ∈ shapes, axisLen s k = 1 ∨ axisLen s k = v) ∧
        (v = 1 ∨ ∃ s ∈ shapes, axisLen s k = v) := by
  unfold bcastAxis
  have : bcastAxisStep (k + 1) = fun s a => mergeLen s (axisLen a k) := by
    funext s a; exact bcastAxisStep_eq k s a
  rw [this, foldlM_merge]
  simp

theorem foldl_max_le (l : List (List Nat)) (d m : Nat) :
    l.foldl (fun dim a => max dim a.length) d ≤ m ↔ d ≤ m ∧ ∀ a ∈ l, a.length ≤ m := by
  induction l generalizing d with
  | nil => simp
  | cons a l ih => simp [ih, Nat.max_le]; grind

theorem maxNdim_le {l : List (List Nat)} {m : Nat} : maxNdim l ≤ m ↔ ∀ a ∈ l, a.length ≤ m := by
  simp [maxNdim, foldl_max_le]

theorem length_le_maxNdim {l : List (List Nat)} {a : List Nat} (h : a ∈ l) :
    a.length ≤ maxNdim l := maxNdim_le.1 (Nat.le_refl _) a h

theorem maxNdim_attained (l : List (List Nat)) : maxNdim l = 0 ∨ ∃ a ∈ l, a.length = maxNdim l := by
  by_cases h : maxNdim l = 0
  · exact .inl h
  · right
    by_cases h2 : ∃ a ∈ l, a.length = maxNdim l
    · exact h2
    · exfalso
      have : maxNdim l ≤ maxNdim l - 1 := by
        rw [maxNdim_le]
        intro a ha
        have h3 := length_le_maxNdim ha
        have h4 : a.length ≠ maxNdim l := fun h => h2 ⟨a, ha, h⟩
        omega
      omega

theorem mapM_ok_iff {α β : Type} (f : α → Except PyErr β) (l : List α) (r : List β) :
    l.mapM f = .ok r ↔ r.length = l.length ∧ ∀ i (h : i < l.length) (h' : i < r.length),
      f l[i] = .ok r[i] := by
  induction l generalizing r with
  | nil =>
    cases r <;> simp [pure, Except.pure]
  | cons a l ih =>
    rw [List.mapM_cons]
    cases ha : f a with
    | error e =>
      simp only [bind, Except.bind]
      constructor
      · intro h; cases h
      · rintro ⟨h1, h2⟩
        cases r with
        | nil => simp at h1
        | cons b r =>
          have := h2 0 (by simp) (by simp)
          simp [ha] at this
    | ok b =>
      simp only [bind, Except.bind]
      cases hl : l.mapM f with
      | error e =>
        simp only
        constructor
        · intro h; cases h
        · rintro ⟨h1, h2⟩
          cases r with
          | nil => simp at h1
          | cons c r =>
            have h3 : l.mapM f = .ok r := by
              rw [ih]
              refine ⟨by simpa using h1, ?_⟩
              intro i hi hi'
              have := h2 (i+1) (by simpa using hi) (by simpa using hi')
              simpa using this
            rw [hl] at h3; cases h3
      | ok bs =>
        simp only [pure, Except.pure, Except.ok.injEq]
        have hbs := (ih bs).1 hl
        constructor
        · rintro rfl
          refine ⟨by simp [hbs.1], ?_⟩
          intro i hi hi'
          cases i with
          | zero => simpa using ha
          | succ i => simpa using hbs.2 i (by simpa using hi) (by simpa using hi')
        · rintro ⟨h1, h2⟩
          cases r with
          | nil => simp at h1
          | cons c r =>
            have h0 := h2 0 (by simp) (by simp)
            simp [ha] at h0
            have h3 : l.mapM f = .ok r := by
              rw [ih]
              refine ⟨by simpa using h1, ?_⟩
              intro i hi hi'
              have := h2 (i+1) (by simpa using hi) (by simpa using hi')
              simpa using this
            rw [hl] at h3
            cases h3
            rw [h0]

theorem axisLen_eq_getElem {r : List Nat} {j : Nat} (h : j < r.length) :
    axisLen r (r.length - 1 - j) = r[j] := by
  unfold axisLen
  rw [List.getElem?_reverse (by omega)]
  have : r.length - 1 - (r.length - 1 - j) = j := by omega
  rw [this, List.getElem?_eq_getElem h]
  rfl

theorem axisLen_ext {r r' : List Nat} (hl : r.length = r'.length)
    (h : ∀ k, axisLen r k = axisLen r' k) : r = r' := by
  apply List.ext_getElem hl
  intro i h1 h2
  have := h (r.length - 1 - i)
  rw [axisLen_eq_getElem h1, hl, axisLen_eq_getElem h2] at this
  exact this

theorem broadcastedShape_ok (shapes : List (List Nat)) (r : List Nat) :
    broadcastedShape shapes = .ok r ↔ IsBroadcast shapes r := by
  unfold broadcastedShape
  simp only
  rw [mapM_ok_iff]
  simp only [List.length_range, List.getElem_range]
  constructor
  · rintro ⟨hlen, h⟩
    have hax : ∀ k, (∀ s ∈ shapes, axisLen s k = 1 ∨ axisLen s k = axisLen r k) ∧
        (axisLen r k = 1 ∨ ∃ s ∈ shapes, axisLen s k = axisLen r k) := by
      intro k
      by_cases hk : k < r.length
      · have hj : r.length - 1 - k < r.length := by omega
        have h1 := h (r.length - 1 - k) (by omega) hj
        have h2 : maxNdim shapes - (r.length - 1 - k) = k + 1 := by omega
        rw [h2, bcastAxis_ok] at h1
        have h3 := axisLen_eq_getElem hj
        have h4 : r.length - 1 - (r.length - 1 - k) = k := by omega
        rw [h4] at h3
        rw [h3]
        exact h1
      · refine ⟨fun s hs => .inl (axisLen_of_ge ?_), .inl (axisLen_of_ge (by omega))⟩
        have := length_le_maxNdim hs
        omega
    refine ⟨?_, ?_, fun k => (hax k).1, fun k => (hax k).2⟩
    · intro s hs; rw [hlen]; exact length_le_maxNdim hs
    · rw [hlen]; exact maxNdim_attained shapes
  · intro hb
    have hlen : r.length = maxNdim shapes := by
      apply Nat.le_antisymm
      · rcases hb.rank_le with h | ⟨s, hs, h⟩
        · omega
        · rw [← h]; exact length_le_maxNdim hs
      · exact maxNdim_le.2 hb.rank_ge
    refine ⟨hlen, ?_⟩
    intro i hi hi'
    have h2 : maxNdim shapes - i = (maxNdim shapes - 1 - i) + 1 := by omega
    rw [h2, bcastAxis_ok, ← axisLen_eq_getElem hi', hlen]
    exact ⟨hb.fits _, hb.attained _⟩

theorem isBroadcast_unique {shapes : List (List Nat)} {r r' : List Nat}
    (h : IsBroadcast shapes r) (h' : IsBroadcast shapes r') : r = r' := by
  have h1 := (broadcastedShape_ok shapes r).2 h
  have h2 := (broadcastedShape_ok shapes r').2 h'
  rw [h1] at h2
  exact Except.ok.inj h2

/-- The inner loop can only raise `ValueError`. -/
theorem mergeLen_error {s x : Nat} {e : PyErr} (h : mergeLen s x = .error e) : e = .valueError := by
  unfold mergeLen at h
  split at h
  · cases h
  · split at h
    · cases h; rfl
    · cases h

theorem foldlM_merge_error {β : Type} (f : β → Nat) (l : List β) (s0 : Nat) {e : PyErr}
    (h : l.foldlM (fun s a => mergeLen s (f a)) s0 = Except.error e) : e = .valueError := by
  induction l generalizing s0 with
  | nil => cases h
  | cons a l ih =>
    rw [List.foldlM_cons] at h
    cases h' : mergeLen s0 (f a) with
    | error e' =>
      simp only [h', bind, Except.bind] at h
      cases h
      exact mergeLen_error h'
    | ok w =>
      simp only [h', bind, Except.bind] at h
      exact ih _ h

theorem mapM_error {α β : Type} (f : α → Except PyErr β) (l : List α) {e : PyErr}
    (h : l.mapM f = .error e) : ∃ a ∈ l, f a = .error e := by
  induction l with
  | nil => cases h
  | cons a l ih =>
    rw [List.mapM_cons] at h
    cases ha : f a with
    | error e' =>
      simp only [ha, bind, Except.bind] at h
      cases h
      exact ⟨a, by simp, ha⟩
    | ok b =>
      simp only [ha, bind, Except.bind] at h
      cases hl : l.mapM f with
      | error e' =>
        simp only [hl] at h
        cases h
        obtain ⟨c, hc, h2⟩ := ih hl
        exact ⟨c, by simp [hc], h2⟩
      | ok bs => simp only [hl] at h; cases h

theorem broadcastedShape_error {shapes : List (List Nat)} {e : PyErr}
    (h : broadcastedShape shapes = .error e) : e = .valueError := by
  unfold broadcastedShape at h
  obtain ⟨j, hj, h⟩ := mapM_error _ _ h
  have hj : j < maxNdim shapes := by simpa using hj
  have h2 : maxNdim shapes - j = (maxNdim shapes - 1 - j) + 1 := by omega
  rw [h2] at h
  unfold bcastAxis at h
  have : bcastAxisStep (maxNdim shapes - 1 - j + 1)
      = fun s a => mergeLen s (axisLen a (maxNdim shapes - 1 - j)) := by
    funext s a; exact bcastAxisStep_eq _ s a
  rw [this] at h
  exact foldlM_merge_error _ _ _ h

theorem exists_isBroadcast_iff (shapes : List (List Nat)) :
    (∃ r, IsBroadcast shapes r) ↔ Compatible shapes := by
  constructor
  · rintro ⟨r, hr⟩ k s hs t ht
    have h1 := hr.fits k s hs
    have h2 := hr.fits k t ht
    omega
  · intro hc
    have hk : ∀ k, ∃ v, bcastAxis shapes (k+1) = .ok v := by
      intro k
      by_cases h : ∃ s ∈ shapes, axisLen s k ≠ 1
      · obtain ⟨s, hs, h1⟩ := h
        refine ⟨axisLen s k, (bcastAxis_ok _ _ _).2 ⟨?_, .inr ⟨s, hs, rfl⟩⟩⟩
        intro t ht
        have := hc k s hs t ht
        omega
      · refine ⟨1, (bcastAxis_ok _ _ _).2 ⟨?_, .inl rfl⟩⟩
        intro t ht
        left
        by_cases h1 : axisLen t k = 1
        · exact h1
        · exact absurd ⟨t, ht, h1⟩ h
    cases h : broadcastedShape shapes with
    | ok r => exact ⟨r, (broadcastedShape_ok _ _).1 h⟩
    | error e =>
      exfalso
      unfold broadcastedShape at h
      obtain ⟨j, hj, h⟩ := mapM_error _ _ h
      have hj : j < maxNdim shapes := by simpa using hj
      have h2 : maxNdim shapes - j = (maxNdim shapes - 1 - j) + 1 := by omega
      rw [h2] at h
      obtain ⟨v, hv⟩ := hk (maxNdim shapes - 1 - j)
      rw [hv] at h
      cases h

theorem isShapeSubsetLoop_eq (sub full : List Nat) (h : sub.length ≤ full.length) (ks : List Nat)
    (hks : ∀ k ∈ ks, k < sub.length) :
    isShapeSubsetLoop sub full (ks.map (· + 1)) = .ok (decide
      (∀ k ∈ ks, axisLen sub k = 1 ∨ axisLen sub k = axisLen full k)) := by
  induction ks with
  | nil => simp [isShapeSubsetLoop]
  | cons k ks ih =>
    have hk : k < sub.length := hks k (by simp)
    have hk2 : k < full.length := by omega
    have ih' := ih (fun k' hk' => hks k' (by simp [hk']))
    simp only [List.map_cons, isShapeSubsetLoop, negIdx_eq hk, negIdx_eq hk2, bind, Except.bind]
    by_cases hc : axisLen sub k ≠ 1 ∧ axisLen sub k ≠ axisLen full k
    · rw [if_pos hc]
      simp only [pure, Except.pure]
      congr 1
      symm
      rw [decide_eq_false_iff_not]
      intro h
      have := h k (by simp)
      omega
    · rw [if_neg hc, ih']
      congr 1
      rw [decide_eq_decide]
      simp only [List.mem_cons, forall_eq_or_imp]
      constructor
      · intro h; exact ⟨by omega, h⟩
      · intro h; exact h.2

theorem isShapeSubset_eq (sub full : List Nat) :
    ∃ b, isShapeSubset sub full = .ok b ∧ (b = true ↔ BroadcastsTo sub full) := by
  unfold isShapeSubset
  by_cases h : sub.length > full.length
  · exact ⟨false, by rw [if_pos h], by simp [BroadcastsTo]; omega⟩
  · rw [if_neg h, isShapeSubsetLoop_eq _ _ (by omega) _ (by simp)]
    refine ⟨_, rfl, ?_⟩
    simp only [List.mem_range, decide_eq_true_eq, BroadcastsTo]
    constructor
    · intro h1
      refine ⟨by omega, fun k => ?_⟩
      by_cases hk : k < sub.length
      · exact h1 k hk
      · left; exact axisLen_of_ge (by omega)
    · rintro ⟨-, h2⟩ k hk
      exact h2 k

/-- Broadcasting a group first. -/
theorem isBroadcast_group {group rest : List (List Nat)} {g : List Nat}
    (hgb : IsBroadcast group g) (r : List Nat) :
    IsBroadcast (g :: rest) r ↔ IsBroadcast (group ++ rest) r := by
  constructor
  · intro h
    refine ⟨?_, ?_, ?_, ?_⟩
    · intro s hs
      rcases List.mem_append.1 hs with hs | hs
      · exact Nat.le_trans (hgb.rank_ge s hs) (h.rank_ge g (by simp))
      · exact h.rank_ge s (by simp [hs])
    · rcases h.rank_le with h1 | ⟨s, hs, h1⟩
      · exact .inl h1
      · rcases List.mem_cons.1 hs with rfl | hs
        · rcases hgb.rank_le with h2 | ⟨t, ht, h2⟩
          · left; omega
          · right; exact ⟨t, by simp [ht], by omega⟩
        · right; exact ⟨s, by simp [hs], h1⟩
    · intro k s hs
      rcases List.mem_append.1 hs with hs | hs
      · have h1 := hgb.fits k s hs
        have h2 := h.fits k g (by simp)
        omega
      · exact h.fits k s (by simp [hs])
    · intro k
      rcases h.attained k with h1 | ⟨s, hs, h1⟩
      · exact .inl h1
      · rcases List.mem_cons.1 hs with rfl | hs
        · rcases hgb.attained k with h2 | ⟨t, ht, h2⟩
          · left; omega
          · right; exact ⟨t, by simp [ht], by omega⟩
        · right; exact ⟨s, by simp [hs], h1⟩
  · intro h
    refine ⟨?_, ?_, ?_, ?_⟩
    · intro s hs
      rcases List.mem_cons.1 hs with rfl | hs
      · rcases hgb.rank_le with h2 | ⟨t, ht, h2⟩
        · omega
        · have := h.rank_ge t (by simp [ht]); omega
      · exact h.rank_ge s (by simp [hs])
    · rcases h.rank_le with h1 | ⟨s, hs, h1⟩
      · exact .inl h1
      · right
        rcases List.mem_append.1 hs with hs | hs
        · refine ⟨g, by simp, ?_⟩
          have h2 := hgb.rank_ge s hs
          rcases hgb.rank_le with h3 | ⟨t, ht, h3⟩
          · omega
          · have := h.rank_ge t (by simp [ht]); omega
        · exact ⟨s, by simp [hs], h1⟩
    · intro k s hs
      rcases List.mem_cons.1 hs with rfl | hs
      · rcases hgb.attained k with h2 | ⟨t, ht, h2⟩
        · exact .inl h2
        · have := h.fits k t (by simp [ht]); omega
      · exact h.fits k s (by simp [hs])
    · intro k
      rcases h.attained k with h1 | ⟨s, hs, h1⟩
      · exact .inl h1
      · rcases List.mem_append.1 hs with hs | hs
        · have h2 := hgb.fits k s hs
          rcases h2 with h2 | h2
          · left; omega
          · right; exact ⟨g, by simp, by omega⟩
        · right; exact ⟨s, by simp [hs], h1⟩

end Verif
