import Verif.Lemmas.Collapse

/-! # Helper lemmas: `np.einsum` on right-aligned labels, `np.reshape` inserting unit axes -/

namespace Verif
open Spec Function

theorem einsumUnify_eq (lens : List Nat) : einsumUnify lens = lens.foldlM mergeLen 1 := by
  unfold einsumUnify
  congr 1
  funext s x
  unfold mergeLen
  split
  · rfl
  · by_cases h1 : x = 1
    · simp [h1]
    · by_cases h2 : x = s <;> simp [h1, h2]

theorem einsumUnify_ok {lens : List Nat} {v : Nat} :
    einsumUnify lens = .ok v ↔ (∀ x ∈ lens, x = 1 ∨ x = v) ∧ (v = 1 ∨ v ∈ lens) := by
  rw [einsumUnify_eq]
  have := foldlM_merge (fun x : Nat => x) lens 1 v
  rw [show (fun s a => mergeLen s a) = mergeLen from rfl] at this
  rw [this]
  simp

theorem einsumUnify_error {lens : List Nat} {e : PyErr} (h : einsumUnify lens = .error e) :
    e = .valueError := by
  rw [einsumUnify_eq] at h
  exact foldlM_merge_error (fun x : Nat => x) lens 1 h

theorem mapM_ok_of {α β : Type} (f : α → Except PyErr β) (g : α → β) (l : List α)
    (h : ∀ a ∈ l, f a = .ok (g a)) : l.mapM f = .ok (l.map g) := by
  rw [mapM_ok_iff]
  refine ⟨by simp, ?_⟩
  intro i hi hi'
  simp [h]

theorem mapM_error_of {α β : Type} (f : α → Except PyErr β) (l : List α) (e : PyErr)
    (he : ∀ a ∈ l, ∀ e', f a = .error e' → e' = e) (h : ∃ a ∈ l, ∃ e', f a = .error e') :
    l.mapM f = .error e := by
  cases h1 : l.mapM f with
  | error e' =>
    obtain ⟨a, ha, h2⟩ := mapM_error f l h1
    rw [he a ha e' h2]
  | ok r =>
    exfalso
    obtain ⟨a, ha, e', h2⟩ := h
    rw [mapM_ok_iff] at h1
    obtain ⟨i, hi, rfl⟩ := List.getElem_of_mem ha
    rw [h1.2 i hi (by omega)] at h2
    cases h2

theorem lookup_map_self (l : List Nat) (g : Nat → Nat) (a : Nat) (h : a ∈ l) :
    (l.map fun x => (x, g x)).lookup a = some (g a) := by
  induction l with
  | nil => simp at h
  | cons b l ih =>
    simp only [List.map_cons, List.lookup]
    by_cases hb : a = b
    · subst hb; simp
    · have : (a == b) = false := by simpa using hb
      rw [this]
      simp only
      exact ih (by simpa [hb] using h)

/-- The labels `range(maxDim - ndim, maxDim)` given to an array by `sum_multiply`. -/
def alignedLabels {α : Type _} (M : Nat) (X : Arr α) : List Nat :=
  (List.range X.shape.length).map (M - X.shape.length + ·)

theorem alignedLabels_reverse {α : Type _} {M : Nat} {X : Arr α} (hM : X.shape.length ≤ M) {k : Nat}
    (hk : k < X.shape.length) : (alignedLabels M X).reverse.getD k 0 = M - 1 - k := by
  rw [List.getD_eq_getElem?_getD, List.getElem?_reverse (by simpa [alignedLabels] using hk)]
  simp only [alignedLabels, List.length_map, List.length_range]
  rw [List.getElem?_map, List.getElem?_range (by omega)]
  simp
  omega

theorem mem_einsumLens_aligned {α : Type _} {args : List (Arr α)} {M : Nat}
    (hM : ∀ X ∈ args, X.shape.length ≤ M) {j : Nat} (hj : j < M) {v : Nat} :
    v ∈ einsumLens (args.map fun X => (X, alignedLabels M X)) (M - 1 - j) ↔
      ∃ X ∈ args, j < X.shape.length ∧ axisLen X.shape j = v := by
  unfold einsumLens
  simp only [List.mem_flatMap, List.mem_map, List.mem_filter, decide_eq_true_eq]
  constructor
  · rintro ⟨op, ⟨X, hX, rfl⟩, ⟨l, d⟩, ⟨hz, hl⟩, hd⟩
    simp only at hz hl hd
    subst hd
    refine ⟨X, hX, ?_⟩
    have hXM := hM X hX
    obtain ⟨i, hi, he⟩ := List.getElem_of_mem hz
    simp only [List.getElem_zip, Prod.mk.injEq] at he
    have hi' : i < X.shape.length := by
      simp [alignedLabels] at hi; omega
    simp only [alignedLabels, List.getElem_map, List.getElem_range] at he
    have hjl : j = X.shape.length - 1 - i := by omega
    refine ⟨by omega, ?_⟩
    rw [hjl, axisLen_eq_getElem hi']
    exact he.2
  · rintro ⟨X, hX, hjl, rfl⟩
    have hXM := hM X hX
    refine ⟨_, ⟨X, hX, rfl⟩, (M - 1 - j, axisLen X.shape j), ⟨?_, rfl⟩, rfl⟩
    apply List.mem_iff_getElem.2
    refine ⟨X.shape.length - 1 - j, by simp [alignedLabels]; omega, ?_⟩
    simp only [List.getElem_zip, Prod.mk.injEq]
    constructor
    · simp only [alignedLabels, List.getElem_map, List.getElem_range]; omega
    · rw [← axisLen_eq_getElem (by omega)]
      congr 1
      omega

theorem einsumUnify_aligned {α : Type _} {args : List (Arr α)} {B : List Nat}
    (hB : IsBroadcast (args.map (·.shape)) B) {j : Nat} (hj : j < B.length) :
    einsumUnify (einsumLens (args.map fun X => (X, alignedLabels B.length X)) (B.length - 1 - j))
      = .ok (axisLen B j) := by
  have hM : ∀ X ∈ args, X.shape.length ≤ B.length := fun X hX =>
    hB.rank_ge _ (List.mem_map_of_mem hX)
  rw [einsumUnify_ok]
  constructor
  · intro x hx
    obtain ⟨X, hX, _, rfl⟩ := (mem_einsumLens_aligned hM hj).1 hx
    exact hB.fits j _ (List.mem_map_of_mem hX)
  · rcases hB.attained j with h | ⟨s, hs, h⟩
    · exact .inl h
    · by_cases h1 : axisLen B j = 1
      · exact .inl h1
      · right
        obtain ⟨X, hX, rfl⟩ := List.mem_map.1 hs
        refine (mem_einsumLens_aligned hM hj).2 ⟨X, hX, ?_, h⟩
        by_contra hc
        exact h1 (by rw [← h]; exact axisLen_of_ge (by omega))

theorem mem_einsumLabels_aligned {α : Type _} {args : List (Arr α)} {B : List Nat}
    (hB : IsBroadcast (args.map (·.shape)) B) {l : Nat} :
    l ∈ einsumLabels (args.map fun X => (X, alignedLabels B.length X)) ↔ l < B.length := by
  unfold einsumLabels
  simp only [List.mem_dedup, List.mem_flatMap, List.mem_map]
  constructor
  · rintro ⟨op, ⟨X, hX, rfl⟩, h⟩
    have := hB.rank_ge _ (List.mem_map_of_mem hX)
    simp [alignedLabels] at h
    omega
  · intro h
    rcases hB.rank_le with h0 | ⟨s, hs, hl⟩
    · omega
    · obtain ⟨X, hX, rfl⟩ := List.mem_map.1 hs
      refine ⟨_, ⟨X, hX, rfl⟩, ?_⟩
      simp [alignedLabels, hl, h]

/-- The reflection between labels and positions counted from the right. -/
def flipAx (M k : Nat) : Nat := if k < M then M - 1 - k else k

theorem flipAx_flipAx (M k : Nat) : flipAx M (flipAx M k) = k := by
  unfold flipAx
  by_cases h : k < M
  · rw [if_pos h, if_pos (by omega)]; omega
  · rw [if_neg h, if_neg h]

theorem flipAx_inj {M a b : Nat} (h : flipAx M a = flipAx M b) : a = b := by
  rw [← flipAx_flipAx M a, h, flipAx_flipAx]

/-- The product of the arguments at a broadcast coordinate. -/
def prodAt {α : Type _} [CommSemiring α] (args : List (Arr α)) (c : Nat → Nat) : α :=
  (args.map fun X => X.at c).prod

theorem npEinsum_aligned {α : Type} [CommSemiring α] {args : List (Arr α)} {B : List Nat}
    (hB : IsBroadcast (args.map (·.shape)) B) {out : List Nat} (hnd : out.Nodup)
    (hout : ∀ l ∈ out, l < B.length) :
    ∃ y, npEinsum (args.map fun X => (X, alignedLabels B.length X)) out = .ok y ∧
      y.shape = out.map (fun l => axisLen B (B.length - 1 - l)) ∧
      ∀ c, y.get c = sumAxes (selAxes B (fun k => decide (B.length - 1 - k ∉ out))) (prodAt args)
        (fun k => if k < B.length ∧ B.length - 1 - k ∈ out then
          c (out.length - 1 - out.idxOf (B.length - 1 - k)) else 0) := by
  have hM : ∀ X ∈ args, X.shape.length ≤ B.length := fun X hX =>
    hB.rank_ge _ (List.mem_map_of_mem hX)
  set ops := args.map fun X => (X, alignedLabels B.length X) with hops
  have h1 : ∀ op ∈ ops, op.2.length = op.1.shape.length := by
    intro op hop
    simp only [hops, List.mem_map] at hop
    obtain ⟨X, _, rfl⟩ := hop
    simp [alignedLabels]
  have h2 : out.Nodup ∧ ∀ l ∈ out, l ∈ einsumLabels ops :=
    ⟨hnd, fun l hl => (mem_einsumLabels_aligned hB).2 (hout l hl)⟩
  set g : Nat → Nat := fun l => axisLen B (B.length - 1 - l) with hg
  have h3 : ((einsumLabels ops).mapM fun l => do return (l, ← einsumUnify (einsumLens ops l)))
      = Except.ok ((einsumLabels ops).map fun l => (l, g l)) := by
    apply mapM_ok_of
    intro l hl
    have hl' := (mem_einsumLabels_aligned hB).1 hl
    have := einsumUnify_aligned hB (j := B.length - 1 - l) (by omega)
    rw [show B.length - 1 - (B.length - 1 - l) = l by omega] at this
    simp only [bind, Except.bind, this, pure, Except.pure, hg, hops]
  have hlen : ∀ l, l < B.length →
      ((((einsumLabels ops).map fun l => (l, g l)).lookup l).getD 1) = g l := by
    intro l hl
    rw [lookup_map_self _ _ _ ((mem_einsumLabels_aligned hB).2 hl)]
    rfl
  refine ⟨_, by
    unfold npEinsum
    rw [if_neg (not_not.2 h1), if_neg (not_not.2 h2), h3]
    rfl, ?_, ?_⟩
  · simp only
    apply List.map_congr_left
    intro l hl
    exact hlen l (hout l hl)
  · intro c
    simp only
    -- rename labels to right positions
    have hperm : ((((einsumLabels ops).filter (· ∉ out)).map fun l =>
        (l, (((einsumLabels ops).map fun l => (l, g l)).lookup l).getD 1))).Perm
        ((selAxes B (fun k => decide (B.length - 1 - k ∉ out))).map
          fun p => (flipAx B.length p.1, p.2)) := by
      have e1 : (((einsumLabels ops).filter (· ∉ out)).map fun l =>
          (l, (((einsumLabels ops).map fun l => (l, g l)).lookup l).getD 1))
          = ((einsumLabels ops).filter (· ∉ out)).map fun l => (l, g l) := by
        apply List.map_congr_left
        intro l hl
        rw [hlen l ((mem_einsumLabels_aligned hB).1 (List.mem_filter.1 hl).1)]
      rw [e1]
      have e2 : (selAxes B (fun k => decide (B.length - 1 - k ∉ out))).map
          (fun p => (flipAx B.length p.1, p.2))
          = (((List.range B.length).filter (fun k => decide (B.length - 1 - k ∉ out))).map
            (flipAx B.length)).map fun l => (l, g l) := by
        unfold selAxes
        rw [List.map_map, List.map_map]
        apply List.map_congr_left
        intro k hk
        simp only [List.mem_filter, List.mem_range] at hk
        simp only [comp, hg, flipAx, if_pos hk.1]
        rw [show B.length - 1 - (B.length - 1 - k) = k by omega]
      rw [e2]
      apply List.Perm.map
      rw [List.perm_ext_iff_of_nodup]
      · intro l
        simp only [List.mem_filter, List.mem_map, List.mem_range, decide_eq_true_eq,
          mem_einsumLabels_aligned hB, hops]
        constructor
        · rintro ⟨hl, hlo⟩
          refine ⟨B.length - 1 - l, ⟨by omega, ?_⟩, ?_⟩
          · rwa [show B.length - 1 - (B.length - 1 - l) = l by omega]
          · simp only [flipAx]; rw [if_pos (by omega)]; omega
        · rintro ⟨k, ⟨hk, hko⟩, rfl⟩
          simp only [flipAx, if_pos hk]
          exact ⟨by omega, hko⟩
      · exact List.Nodup.filter _ (by unfold einsumLabels; exact List.nodup_dedup _)
      · apply List.Nodup.map
        · intro a b h; exact flipAx_inj h
        · exact List.nodup_range.filter _
    have hkeys : (((((einsumLabels ops).filter (· ∉ out)).map fun l =>
        (l, (((einsumLabels ops).map fun l => (l, g l)).lookup l).getD 1))).map (·.1)).Nodup := by
      rw [List.map_map]
      have : ((fun x : Nat × Nat => x.1) ∘ fun l =>
        (l, (((einsumLabels ops).map fun l => (l, g l)).lookup l).getD 1)) = id := by
        funext l; rfl
      rw [this, List.map_id]
      exact List.Nodup.filter _ (by unfold einsumLabels; exact List.nodup_dedup _)
    rw [sumAxes_perm hperm hkeys]
    have hF : (fun e : Nat → Nat =>
        (ops.map fun op => op.1.at fun k => e (op.2.reverse.getD k 0)).prod)
        = fun e => prodAt args (e ∘ flipAx B.length) := by
      funext e
      unfold prodAt
      rw [hops, List.map_map]
      congr 1
      apply List.map_congr_left
      intro X hX
      simp only [comp]
      apply X.at_congr
      intro k hk
      have hkl : k < X.shape.length := by
        by_contra hc
        exact hk (axisLen_of_ge (by omega))
      have := hM X hX
      rw [alignedLabels_reverse this hkl]
      show e _ = e (flipAx B.length k)
      congr 1
      unfold flipAx
      rw [if_pos (by omega)]
    rw [hF, sumAxes_rename _ _ _ (fun p _ k h => flipAx_inj h)]
    congr 1
    funext k
    simp only [comp, flipAx]
    by_cases hk : k < B.length
    · simp only [hk, if_true, true_and]
    · simp only [hk, if_false, false_and]
      rw [if_neg]
      intro h
      exact hk (hout k h)

end Verif
