import Verif.Spec.Keyed
import Verif.Lemmas.Einsum
import Verif.Lemmas.Message
import Verif.Model.SumMultiplyNode

/-! # Helper lemmas: sums over named axes, `np.einsum` with arbitrary labels -/

namespace Verif
open Spec Function

section sums
variable {κ α : Type _} [DecidableEq κ]

theorem sumKeys_congr [AddCommMonoid α] (L : List (κ × Nat)) {f g : (κ → Nat) → α}
    {e : κ → Nat} (h : ∀ e', (∀ k, k ∉ L.map (·.1) → e' k = e k) → f e' = g e') :
    sumKeys L f e = sumKeys L g e := by
  induction L generalizing e with
  | nil => exact h e (fun _ _ => rfl)
  | cons p L ih =>
    obtain ⟨j, d⟩ := p
    simp only [sumKeys]
    apply Finset.sum_congr rfl
    intro t _
    apply ih
    intro c' hc'
    apply h
    intro k hk
    simp at hk
    have := hc' k (by simpa using hk.2)
    simpa [update, hk.1] using this

theorem sumKeys_congr' [AddCommMonoid α] (L : List (κ × Nat)) (hnd : (L.map (·.1)).Nodup)
    {f g : (κ → Nat) → α} {c : κ → Nat} (h : ∀ c', (∀ k, k ∉ L.map (·.1) → c' k = c k) →
      (∀ p ∈ L, c' p.1 < p.2) → f c' = g c') :
    sumKeys L f c = sumKeys L g c := by
  induction L generalizing c with
  | nil => exact h c (fun _ _ => rfl) (by simp)
  | cons p L ih =>
    obtain ⟨j, d⟩ := p
    simp only [sumKeys]
    apply Finset.sum_congr rfl
    intro t ht
    simp only [List.map_cons, List.nodup_cons] at hnd
    apply ih hnd.2
    intro c' hc' hc''
    apply h
    · intro k hk
      simp at hk
      have := hc' k (by simpa using hk.2)
      simpa [update, hk.1] using this
    · intro p hp
      rcases List.mem_cons.1 hp with rfl | hp
      · have := hc' j hnd.1
        simp at this
        simpa [this] using ht
      · exact hc'' p hp

theorem sumKeys_append [AddCommMonoid α] (L M : List (κ × Nat)) (f : (κ → Nat) → α)
    (c : κ → Nat) : sumKeys (L ++ M) f c = sumKeys L (sumKeys M f) c := by
  induction L generalizing c with
  | nil => rfl
  | cons p L ih =>
    obtain ⟨j, d⟩ := p
    simp only [List.cons_append, sumKeys, ih]

theorem sumKeys_perm [AddCommMonoid α] {L M : List (κ × Nat)} (h : L.Perm M)
    (hnd : (L.map (·.1)).Nodup) (f : (κ → Nat) → α) (c : κ → Nat) :
    sumKeys L f c = sumKeys M f c := by
  induction h generalizing c with
  | nil => rfl
  | cons p _ ih =>
    obtain ⟨j, d⟩ := p
    simp only [List.map_cons, List.nodup_cons] at hnd
    simp only [sumKeys]
    exact Finset.sum_congr rfl fun t _ => ih hnd.2 _
  | swap p q L =>
    obtain ⟨j, d⟩ := p
    obtain ⟨k, e⟩ := q
    simp only [sumKeys]
    rw [Finset.sum_comm]
    simp at hnd
    have hjk : j ≠ k := fun h => hnd.1.1 h.symm
    simp only [update_comm hjk]
  | trans h1 h2 ih1 ih2 =>
    rw [ih1 hnd, ih2 ((h1.map _).nodup_iff.1 hnd)]

theorem sumKeys_const [CommSemiring α] (L : List (κ × Nat)) (f : (κ → Nat) → α)
    (c : κ → Nat) (h : ∀ p ∈ L, ∀ c t, f (update c p.1 t) = f c) :
    sumKeys L f c = ((L.map (·.2)).prod : Nat) * f c := by
  induction L generalizing c with
  | nil => simp [sumKeys]
  | cons p L ih =>
    obtain ⟨j, d⟩ := p
    simp only [sumKeys]
    rw [Finset.sum_congr rfl fun t _ => ih (update c j t) (fun p hp => h p (by simp [hp]))]
    have : ∀ t, f (update c j t) = f c := fun t => h (j, d) (by simp) c t
    simp only [this]
    rw [Finset.sum_const, Finset.card_range]
    simp
    ring

theorem sumKeys_mul_left [CommSemiring α] (L : List (κ × Nat)) (f g : (κ → Nat) → α)
    (c : κ → Nat) (h : ∀ p ∈ L, ∀ c t, g (update c p.1 t) = g c) :
    sumKeys L (fun c => g c * f c) c = g c * sumKeys L f c := by
  induction L generalizing c with
  | nil => simp [sumKeys]
  | cons p L ih =>
    obtain ⟨j, d⟩ := p
    simp only [sumKeys]
    rw [Finset.mul_sum]
    apply Finset.sum_congr rfl
    intro t _
    rw [ih _ (fun p hp => h p (by simp [hp])), h (j, d) (by simp)]

/-- The summand and the base assignment only matter on the keys the summand uses. -/
theorem sumKeys_base [AddCommMonoid α] (L : List (κ × Nat)) (f : (κ → Nat) → α)
    (used : κ → Prop) (hf : ∀ e e', (∀ k, used k → e k = e' k) → f e = f e')
    {c c' : κ → Nat} (h : ∀ k, used k → k ∉ L.map (·.1) → c k = c' k) :
    sumKeys L f c = sumKeys L f c' := by
  induction L generalizing c c' with
  | nil => exact hf _ _ fun k hk => h k hk (by simp)
  | cons p L ih =>
    obtain ⟨j, d⟩ := p
    simp only [sumKeys]
    apply Finset.sum_congr rfl
    intro t _
    apply ih
    intro k hu hk
    by_cases hkj : k = j
    · subst hkj; simp
    · simp only [update, hkj]
      exact h k hu (by simpa [hkj] using hk)

/-- Sums over unit axes on which the summand does not depend, or which are at position `0`. -/
theorem sumKeys_unit [AddCommMonoid α] (L : List (κ × Nat)) (f : (κ → Nat) → α) (c : κ → Nat)
    (h : ∀ p ∈ L, p.2 = 1 ∧ ∀ c t, f (update c p.1 t) = f c) : sumKeys L f c = f c := by
  induction L generalizing c with
  | nil => rfl
  | cons p L ih =>
    obtain ⟨j, d⟩ := p
    simp only [sumKeys]
    have h0 := h (j, d) (by simp)
    simp only at h0
    rw [h0.1]
    simp only [Finset.range_one, Finset.sum_singleton]
    rw [ih _ (fun p hp => h p (by simp [hp])), h0.2]

/-- Injective renaming of the keys (on the keys which are used). -/
theorem sumKeys_rename {κ' : Type _} [DecidableEq κ'] [AddCommMonoid α] (L : List (κ × Nat))
    (f : (κ → Nat) → α) (ℓ : κ → κ') (used : κ → Prop)
    (hf : ∀ e e', (∀ k, used k → e k = e' k) → f e = f e')
    (hinj : ∀ a b, used a → used b → ℓ a = ℓ b → a = b) (hL : ∀ p ∈ L, used p.1)
    (c : κ' → Nat) (e : κ → Nat) (hce : ∀ k, used k → c (ℓ k) = e k) :
    sumKeys (L.map fun p => (ℓ p.1, p.2)) (fun c => f (c ∘ ℓ)) c = sumKeys L f e := by
  induction L generalizing c e with
  | nil => exact hf _ _ hce
  | cons p L ih =>
    obtain ⟨j, d⟩ := p
    simp only [List.map_cons, sumKeys]
    apply Finset.sum_congr rfl
    intro t _
    apply ih (fun p hp => hL p (by simp [hp]))
    intro k hk
    by_cases h : k = j
    · subst h; simp
    · have : ℓ k ≠ ℓ j := fun h' => h (hinj k j hk (hL (j, d) (by simp)) h')
      simp only [update, h, this, dite_false]
      exact hce k hk

theorem sumAxes_eq_sumKeys [AddCommMonoid α] (L : List (Nat × Nat)) (f : (Nat → Nat) → α)
    (c : Nat → Nat) : sumAxes L f c = sumKeys L f c := by
  induction L generalizing c with
  | nil => rfl
  | cons p L ih =>
    obtain ⟨j, d⟩ := p
    simp only [sumAxes, sumKeys, ih]

end sums

theorem coord_map_getD {κ : Type _} (ks : List κ) (e : κ → Nat) (k : Nat) (hk : k < ks.length) :
    coord (ks.map e) k = e (ks[ks.length - 1 - k]'(by omega)) := by
  unfold coord
  rw [List.getD_eq_getElem?_getD, List.getElem?_reverse (by simpa using hk)]
  simp only [List.length_map]
  rw [List.getElem?_eq_getElem (by simp; omega)]
  simp

/-- `np.einsum` of operands whose axes are named by keys, the labels being any injective numbering
of the keys. -/
theorem npEinsum_keyed {κ α : Type} [DecidableEq κ] [CommSemiring α] (ops : List (Arr α × List κ))
    (out : List κ) (ℓ len : κ → Nat) (K : List κ)
    (hinj : ∀ a b, (∃ op ∈ ops, a ∈ op.2) → (∃ op ∈ ops, b ∈ op.2) → ℓ a = ℓ b → a = b)
    (hlen : ∀ op ∈ ops, op.2.length = op.1.shape.length)
    (hfit : ∀ op ∈ ops, ∀ p ∈ op.2.zip op.1.shape, p.2 = 1 ∨ p.2 = len p.1)
    (hatt : ∀ k, (∃ op ∈ ops, k ∈ op.2) →
      len k = 1 ∨ ∃ op ∈ ops, (k, len k) ∈ op.2.zip op.1.shape)
    (hnd : out.Nodup) (hout : ∀ k ∈ out, ∃ op ∈ ops, k ∈ op.2)
    (hKnd : K.Nodup) (hK : ∀ k, k ∈ K ↔ (∃ op ∈ ops, k ∈ op.2) ∧ k ∉ out) :
    ∃ y, npEinsum (ops.map fun op => (op.1, op.2.map ℓ)) (out.map ℓ) = .ok y ∧
      y.shape = out.map len ∧
      ∀ c e, (∀ k ∈ out, c (out.length - 1 - out.idxOf k) = e k) →
        y.get c = sumKeys (K.map fun k => (k, len k))
          (fun e => (ops.map fun op => op.1.at (coord (op.2.map e))).prod) e := by
  classical
  set used : κ → Prop := fun k => ∃ op ∈ ops, k ∈ op.2 with hused
  set ops' := ops.map fun op => (op.1, op.2.map ℓ) with hops
  have hlab : ∀ l, l ∈ einsumLabels ops' ↔ ∃ k, used k ∧ ℓ k = l := by
    intro l
    simp only [einsumLabels, List.mem_dedup, List.mem_flatMap, hops, List.mem_map]
    constructor
    · rintro ⟨_, ⟨op, hop, rfl⟩, hl⟩
      obtain ⟨k, hk, rfl⟩ := List.mem_map.1 hl
      exact ⟨k, ⟨op, hop, hk⟩, rfl⟩
    · rintro ⟨k, ⟨op, hop, hk⟩, rfl⟩
      exact ⟨_, ⟨op, hop, rfl⟩, List.mem_map_of_mem hk⟩
  have h1 : ∀ op ∈ ops', op.2.length = op.1.shape.length := by
    intro op hop
    simp only [hops, List.mem_map] at hop
    obtain ⟨o, ho, rfl⟩ := hop
    simpa using hlen o ho
  have hinjout : ∀ a ∈ out, ∀ b ∈ out, ℓ a = ℓ b → a = b := fun a ha b hb h =>
    hinj a b (hout a ha) (hout b hb) h
  have h2 : (out.map ℓ).Nodup ∧ ∀ l ∈ out.map ℓ, l ∈ einsumLabels ops' := by
    refine ⟨(List.nodup_map_iff_inj_on hnd).2 hinjout, ?_⟩
    intro l hl
    obtain ⟨k, hk, rfl⟩ := List.mem_map.1 hl
    exact (hlab _).2 ⟨k, hout k hk, rfl⟩
  have hlens : ∀ k, used k → ∀ v, v ∈ einsumLens ops' (ℓ k) ↔
      ∃ op ∈ ops, (k, v) ∈ op.2.zip op.1.shape := by
    intro k hk v
    simp only [einsumLens, hops, List.mem_flatMap, List.mem_map, List.mem_filter,
      decide_eq_true_eq]
    constructor
    · rintro ⟨_, ⟨op, hop, rfl⟩, ⟨l, d⟩, ⟨hz, hl⟩, hd⟩
      simp only at hz hl hd
      subst hd hl
      rw [List.zip_map_left, List.mem_map] at hz
      obtain ⟨⟨k', d'⟩, hz, he⟩ := hz
      simp only [Prod.map, id, Prod.mk.injEq] at he
      obtain ⟨he, rfl⟩ := he
      have := hinj k' k ⟨op, hop, (List.of_mem_zip hz).1⟩ hk he
      subst this
      exact ⟨op, hop, hz⟩
    · rintro ⟨op, hop, hz⟩
      refine ⟨_, ⟨op, hop, rfl⟩, (ℓ k, v), ⟨?_, rfl⟩, rfl⟩
      simp only
      rw [List.zip_map_left, List.mem_map]
      exact ⟨_, hz, rfl⟩
  have huni : ∀ k, used k → einsumUnify (einsumLens ops' (ℓ k)) = .ok (len k) := by
    intro k hk
    rw [einsumUnify_ok]
    constructor
    · intro x hx
      obtain ⟨op, hop, hz⟩ := (hlens k hk x).1 hx
      exact hfit op hop _ hz
    · rcases hatt k hk with h | h
      · exact .inl h
      · exact .inr ((hlens k hk _).2 h)
  -- lengths by label
  set g : Nat → Nat := fun l => if h : ∃ k, used k ∧ ℓ k = l then len h.choose else 1 with hg
  have hgk : ∀ k, used k → g (ℓ k) = len k := by
    intro k hk
    have hex : ∃ k', used k' ∧ ℓ k' = ℓ k := ⟨k, hk, rfl⟩
    simp only [hg, dif_pos hex]
    rw [hinj _ _ hex.choose_spec.1 hk hex.choose_spec.2]
  have h3 : ((einsumLabels ops').mapM fun l => do return (l, ← einsumUnify (einsumLens ops' l)))
      = Except.ok ((einsumLabels ops').map fun l => (l, g l)) := by
    apply mapM_ok_of
    intro l hl
    obtain ⟨k, hk, rfl⟩ := (hlab l).1 hl
    simp only [bind, Except.bind, huni k hk, pure, Except.pure, hgk k hk]
  have hlk : ∀ k, used k →
      ((((einsumLabels ops').map fun l => (l, g l)).lookup (ℓ k)).getD 1) = len k := by
    intro k hk
    rw [lookup_map_self _ _ _ ((hlab _).2 ⟨k, hk, rfl⟩)]
    exact hgk k hk
  refine ⟨_, by
    unfold npEinsum
    rw [if_neg (not_not.2 h1), if_neg (not_not.2 h2), h3]
    rfl, ?_, ?_⟩
  · simp only [List.map_map]
    apply List.map_congr_left
    intro k hk
    exact hlk k (hout k hk)
  · intro c e hce
    simp only
    have hKu : ∀ k ∈ K, used k := fun k hk => ((hK k).1 hk).1
    have hperm : ((((einsumLabels ops').filter (· ∉ out.map ℓ)).map fun l =>
        (l, (((einsumLabels ops').map fun l => (l, g l)).lookup l).getD 1))).Perm
        ((K.map fun k => (k, len k)).map fun p => (ℓ p.1, p.2)) := by
      have e1 : (K.map fun k => (k, len k)).map (fun p => (ℓ p.1, p.2))
          = (K.map ℓ).map fun l =>
            (l, (((einsumLabels ops').map fun l => (l, g l)).lookup l).getD 1) := by
        rw [List.map_map, List.map_map]
        apply List.map_congr_left
        intro k hk
        simp only [comp, hlk k (hKu k hk)]
      rw [e1]
      apply List.Perm.map
      rw [List.perm_ext_iff_of_nodup]
      · intro l
        simp only [List.mem_filter, decide_eq_true_eq, hlab, List.mem_map]
        constructor
        · rintro ⟨⟨k, hk, rfl⟩, hno⟩
          refine ⟨k, (hK k).2 ⟨hk, fun h => hno ⟨k, h, rfl⟩⟩, rfl⟩
        · rintro ⟨k, hk, rfl⟩
          refine ⟨⟨k, hKu k hk, rfl⟩, ?_⟩
          rintro ⟨k', hk', he⟩
          have := hinj k' k (hout k' hk') (hKu k hk) he
          subst this
          exact ((hK k').1 hk).2 hk'
      · exact List.Nodup.filter _ (by unfold einsumLabels; exact List.nodup_dedup _)
      · exact (List.nodup_map_iff_inj_on hKnd).2
          fun a ha b hb h => hinj a b (hKu a ha) (hKu b hb) h
    have hkeys : (((((einsumLabels ops').filter (· ∉ out.map ℓ)).map fun l =>
        (l, (((einsumLabels ops').map fun l => (l, g l)).lookup l).getD 1))).map (·.1)).Nodup := by
      rw [List.map_map]
      have : ((fun x : Nat × Nat => x.1) ∘ fun l =>
        (l, (((einsumLabels ops').map fun l => (l, g l)).lookup l).getD 1)) = id := by
        funext l; rfl
      rw [this, List.map_id]
      exact List.Nodup.filter _ (by unfold einsumLabels; exact List.nodup_dedup _)
    rw [sumAxes_perm hperm hkeys, sumAxes_eq_sumKeys]
    set F : (κ → Nat) → α :=
      fun e => (ops.map fun op => op.1.at (coord (op.2.map e))).prod with hFdef
    have hF : (fun e : Nat → Nat =>
        (ops'.map fun op => op.1.at fun k => e (op.2.reverse.getD k 0)).prod)
        = fun c => F (c ∘ ℓ) := by
      funext c
      rw [hFdef, hops, List.map_map]
      congr 1
      apply List.map_congr_left
      intro op hop
      simp only [comp]
      apply op.1.at_congr
      intro k hk
      have hkl : k < op.2.length := by
        rw [hlen op hop]
        by_contra hc
        exact hk (axisLen_of_ge (by omega))
      rw [coord_map_getD _ _ _ hkl, List.getD_eq_getElem?_getD,
        List.getElem?_reverse (by simpa using hkl)]
      simp only [List.length_map]
      rw [List.getElem?_eq_getElem (by simp; omega)]
      simp
    have hFu : ∀ e e', (∀ k, used k → e k = e' k) → F e = F e' := by
      intro e e' h
      simp only [hFdef]
      congr 1
      apply List.map_congr_left
      intro op hop
      congr 2
      apply List.map_congr_left
      intro k hk
      exact h k ⟨op, hop, hk⟩
    rw [hF]
    set c0 : Nat → Nat := fun l => if l ∈ out.map ℓ then
      c ((out.map ℓ).length - 1 - (out.map ℓ).idxOf l) else 0 with hc0
    rw [sumKeys_rename (K.map fun k => (k, len k)) F ℓ used hFu hinj
      (by simpa using hKu) c0 (fun k => c0 (ℓ k)) (fun _ _ => rfl)]
    apply sumKeys_base _ _ used hFu
    intro k hk hkK
    have hko : k ∈ out := by
      by_contra hno
      exact hkK (by simpa using (hK k).2 ⟨hk, hno⟩)
    have hidx : (out.map ℓ).idxOf (ℓ k) = out.idxOf k := by
      have hi := List.idxOf_lt_length_of_mem hko
      have hget : (out.map ℓ)[out.idxOf k]'(by simpa using hi) = ℓ k := by
        simp
      rw [← hget]
      exact h2.1.idxOf_getElem _ _
    simp only [hc0, if_pos (List.mem_map_of_mem (f := ℓ) hko), hidx, List.length_map]
    exact hce k hko

/-- The position of a name in the coordinates made of an assignment. -/
theorem coord_map_idxOf {κ : Type _} [DecidableEq κ] (ks : List κ) (e : κ → Nat) {k : κ}
    (hk : k ∈ ks) : coord (ks.map e) (ks.length - 1 - ks.idxOf k) = e k := by
  have hi := List.idxOf_lt_length_of_mem hk
  rw [coord_map_getD _ _ _ (by omega)]
  congr 1
  have : ks.length - 1 - (ks.length - 1 - ks.idxOf k) = ks.idxOf k := by omega
  simp only [this]
  exact List.getElem_idxOf hi

end Verif
