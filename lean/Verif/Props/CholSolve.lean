import Verif.Lemmas.Indexing
import Verif.Lemmas.Shape
import Verif.Model.CholSolve
import Verif.Lemmas.Cholesky

/-!
# C49: batched solves
-/

namespace Verif
open Spec

theorem nestedIterator_eq (s : List Nat) : nestedIterator s = indices s := by
  induction s with
  | nil => rfl
  | cons d ds ih => simp [nestedIterator, indices, ih]

theorem viewShapeR_append_none (r : List (Option Nat)) (n : Nat) (s : List Nat)
    (h : r.length ≤ s.length) : viewShapeR s (r ++ List.replicate n none) = viewShapeR s r := by
  have h0 : ∀ (n : Nat) (s : List Nat), viewShapeR s (List.replicate n none) = s := by
    intro n
    induction n with
    | zero => intro s; cases s <;> rfl
    | succ n ih =>
      intro s
      cases s with
      | nil => rfl
      | cons d s => exact congrArg (d :: ·) (ih s)
  induction r generalizing s with
  | nil =>
    show viewShapeR s (List.replicate n none) = viewShapeR s []
    rw [h0]
    cases s <;> rfl
  | cons o r ih =>
    cases s with
    | nil => simp at h
    | cons d s =>
      simp only [List.length_cons, Nat.add_le_add_iff_right] at h
      cases o with
      | none => exact congrArg (d :: ·) (ih s h)
      | some i => exact ih s h

theorem ixOk_of_full (s : List Nat) (ind : List (Option Nat)) (hl : ind.length = s.length)
    (h : ∀ k i, ind.reverse[k]? = some (some i) → i < axisLen s k) : ixOk s ind = true := by
  unfold ixOk
  rw [Bool.and_eq_true, decide_eq_true_eq, List.all_eq_true]
  refine ⟨by omega, fun p hp => ?_⟩
  obtain ⟨k, hk, rfl⟩ := List.getElem_of_mem hp
  simp only [List.getElem_zip]
  have hk' : k < ind.length ∧ k < s.length := by
    simp only [List.length_zip] at hk; omega
  cases ho : ind[k] with
  | none => rfl
  | some i =>
    simp only [decide_eq_true_eq]
    have h1 := h (ind.length - 1 - k) i (by
      rw [List.getElem?_reverse (by omega), show ind.length - 1 - (ind.length - 1 - k) = k by omega,
        List.getElem?_eq_getElem hk'.1, ho])
    unfold axisLen at h1
    rw [List.getElem?_reverse (by omega),
      show s.length - 1 - (ind.length - 1 - k) = k by omega, List.getElem?_eq_getElem hk'.2] at h1
    exact h1

/-- `U` and `B` have the same length on axis `k`, counted from the right. -/
def sharedAxis (sh_u sh_b : List Nat) (k : Nat) : Prop :=
  k < sh_u.length ∧ k < sh_b.length ∧ axisLen sh_b k = axisLen sh_u k

instance (sh_u sh_b : List Nat) (k : Nat) : Decidable (sharedAxis sh_u sh_b k) := by
  unfold sharedAxis; infer_instance

theorem indB_length (sh_u sh_b i : List Nat) : (indB sh_u sh_b i).length = sh_b.length := by
  simp [indB]

theorem indB_get (sh_u sh_b i : List Nat) (hi : i.length = sh_u.length) (k t : Nat) :
    (indB sh_u sh_b i).reverse[k]? = some (some t) ↔ sharedAxis sh_u sh_b k ∧ coord i k = t := by
  unfold indB sharedAxis
  rw [List.reverse_reverse, List.getElem?_map]
  by_cases hk : k < sh_b.length
  · rw [List.getElem?_range hk]
    simp only [Option.map_some, Option.some.injEq]
    by_cases h : k < sh_u.length ∧ axisLen sh_b k = axisLen sh_u k
    · rw [if_pos h]
      have hk' : k < i.reverse.length := by simp; omega
      unfold coord
      rw [List.getD_eq_getElem?_getD, List.getElem?_eq_getElem hk']
      simp [h, hk]
    · rw [if_neg h]
      constructor
      · intro h'; cases h'
      · rintro ⟨⟨h1, _, h2⟩, _⟩; exact absurd ⟨h1, h2⟩ h
  · rw [List.getElem?_eq_none (by simpa using hk)]
    simp [hk]

/-- The vector of the plate of `c` that broadcasting reads from `B`. -/
def vectorAt {α : Type} (B : Arr α) (c : Nat → Nat) : Nat → α :=
  fun d => B.get (Function.update (restrict B.shape c) 0 d)

section
variable {M α : Type} (solve : M → (Nat → α) → Nat → α) (U : Arr M) (B : Arr α)

theorem axisLen_append_one (s : List Nat) (D k : Nat) :
    axisLen (s ++ [D]) k = if k = 0 then D else axisLen s (k - 1) := by
  unfold axisLen
  rw [List.reverse_append]
  cases k <;> simp

theorem cholSolveStep_spec (sh_b : List Nat) (D : Nat) (hB : B.shape = sh_b ++ [D]) (sh : List Nat)
    (hsh : IsBroadcast [U.shape, sh_b] sh) (hlen : sh.length ≤ sh_b.length + 1)
    (i : List Nat) (hi : i ∈ indices U.shape) (out : Arr α) (hout : out.shape = sh ++ [D]) :
    ∃ out', cholSolveStep solve U B sh out i = .ok out' ∧ out'.shape = sh ++ [D] ∧
      ∀ c, ValidIn (sh ++ [D]) c → out'.get c =
        if (∀ k < U.shape.length, sharedAxis U.shape sh_b k → c (k + 1) = coord i k)
        then solve (U.get (coord i)) (vectorAt B c) (c 0) else out.get c := by
  have hil := length_of_mem_indices hi
  have hiv := coord_valid hi
  have hge : sh_b.length ≤ sh.length := hsh.rank_ge sh_b (by simp)
  set iR := (indB U.shape sh_b i).reverse with hiR
  have hiRl : iR.length = sh_b.length := by rw [hiR, List.length_reverse, indB_length]
  have hget : ∀ k t, (none :: iR)[k]? = some (some t) ↔
      ∃ k', k = k' + 1 ∧ sharedAxis U.shape sh_b k' ∧ coord i k' = t := by
    intro k t
    cases k with
    | zero => simp
    | succ k =>
      rw [List.getElem?_cons_succ, hiR, indB_get _ _ _ hil]
      simp
  have hdl : B.shape.dropLast = sh_b := by rw [hB]; simp
  -- the index into B
  have hfB : fullIx B.shape.length (indB U.shape sh_b i ++ [none]) = none :: iR := by
    unfold fullIx
    rw [hB]
    simp [indB_length, hiR]
  have hokB : ixOk B.shape (indB U.shape sh_b i ++ [none]) = true := by
    refine ixOk_of_full _ _ (by rw [hB]; simp [indB_length]) fun k t hk => ?_
    have hk' : (none :: iR)[k]? = some (some t) := by simpa [hiR] using hk
    obtain ⟨k', rfl, hs, rfl⟩ := (hget k t).1 hk'
    rw [hB, axisLen_append_one, if_neg (by omega), Nat.add_sub_cancel, hs.2.2]
    exact hiv k'
  -- the index into out
  let ind_out := if (indB U.shape sh_b i).length < sh.length
    then [none] ++ indB U.shape sh_b i ++ [none] else indB U.shape sh_b i ++ [none]
  have hrev : ind_out.reverse = (none :: iR) ++ List.replicate (sh.length - sh_b.length) none := by
    show (if (indB U.shape sh_b i).length < sh.length
      then [none] ++ indB U.shape sh_b i ++ [none] else indB U.shape sh_b i ++ [none]).reverse = _
    rw [indB_length]
    split
    · have : sh.length - sh_b.length = 1 := by omega
      simp [this, hiR]
    · have : sh.length - sh_b.length = 0 := by omega
      simp [this, hiR]
  have hlo : ind_out.length = out.shape.length := by
    rw [← List.length_reverse, hrev, hout]
    simp [hiRl]
    omega
  have hfo : fullIx out.shape.length ind_out =
      (none :: iR) ++ List.replicate (sh.length - sh_b.length) none := by
    unfold fullIx
    rw [hlo, Nat.sub_self, List.replicate_zero, List.append_nil, hrev]
  have hshk : ∀ k', sharedAxis U.shape sh_b k' → axisLen sh k' = axisLen U.shape k' := by
    intro k' hs
    rcases hsh.fits k' U.shape (by simp) with h1 | h1
    · rcases hsh.attained k' with h2 | ⟨s, hs', h2⟩
      · rw [h1, h2]
      · have : s = U.shape ∨ s = sh_b := by simpa using hs'
        rcases this with rfl | rfl
        · exact h2.symm
        · rw [← h2, hs.2.2]
    · exact h1.symm
  have hoko : ixOk out.shape ind_out = true := by
    refine ixOk_of_full _ _ hlo fun k t hk => ?_
    rw [hrev] at hk
    have hk' : (none :: iR)[k]? = some (some t) := by
      rcases Nat.lt_or_ge k (none :: iR).length with h | h
      · rwa [List.getElem?_append_left h] at hk
      · rw [List.getElem?_append_right h, List.getElem?_replicate] at hk
        split at hk <;> simp at hk
    obtain ⟨k', rfl, hs, rfl⟩ := (hget k t).1 hk'
    rw [hout, axisLen_append_one, if_neg (by omega), Nat.add_sub_cancel, hshk k' hs]
    exact hiv k'
  have hBr : B.shape.reverse = D :: sh_b.reverse := by rw [hB]; simp
  have hor : out.shape.reverse = D :: sh.reverse := by rw [hout]; simp
  have hvs : viewShapeR out.shape.reverse ((none :: iR) ++ List.replicate (sh.length - sh_b.length) none) =
      viewShapeR (D :: sh.reverse) (none :: iR) := by
    rw [hor]
    exact viewShapeR_append_none _ _ _ (by simp [hiRl]; omega)
  have hlens : ∀ k, lenR (D :: sh_b.reverse) k = 1 ∨
      lenR (D :: sh_b.reverse) k = lenR (D :: sh.reverse) k := by
    intro k
    cases k with
    | zero => exact Or.inr rfl
    | succ k => exact hsh.fits k sh_b (by simp)
  have hbc : ∀ k, axisLen (viewShapeR (D :: sh_b.reverse) (none :: iR)).reverse k = 1 ∨
      axisLen (viewShapeR (D :: sh_b.reverse) (none :: iR)).reverse k =
        axisLen (viewShapeR (D :: sh.reverse) (none :: iR)).reverse k := by
    intro k
    rw [axisLen_reverse, axisLen_reverse]
    exact lenR_viewShapeR (fun a b => a = 1 ∨ a = b) (none :: iR) _ _ hlens (by simp [hiRl])
      (by simp [hiRl]; omega) k
  unfold cholSolveStep
  rw [hdl]
  unfold npIndex
  simp only []
  rw [if_pos hokB, hfB, hBr]
  show ∃ out', npSetIndex out ind_out _ = .ok out' ∧ _
  unfold npSetIndex
  simp only [hfo, hvs]
  rw [if_pos hoko, if_pos (by
    rw [List.all_eq_true]
    intro k _
    rw [Bool.or_eq_true, decide_eq_true_eq, decide_eq_true_eq]
    exact hbc k)]
  refine ⟨_, rfl, hout, fun c hc => ?_⟩
  simp only
  rw [ixSelects_append_none, viewProj_append_none]
  have hsel : ixSelects (none :: iR) c = true ↔
      ∀ k < U.shape.length, sharedAxis U.shape sh_b k → c (k + 1) = coord i k := by
    rw [ixSelects_iff]
    constructor
    · intro h k _ hs
      exact h (k + 1) _ ((hget _ _).2 ⟨k, rfl, hs, rfl⟩)
    · intro h k t hk
      obtain ⟨k', rfl, hs, rfl⟩ := (hget k t).1 hk
      exact h k' hs.1 hs
  by_cases hm : ∀ k < U.shape.length, sharedAxis U.shape sh_b k → c (k + 1) = coord i k
  · rw [if_pos (hsel.2 hm), if_pos hm]
    unfold Arr.at
    simp only
    rw [restrict_reverse]
    set c' := restrictR (viewShapeR (D :: sh_b.reverse) (none :: iR)) (viewProj (none :: iR) c) with hc'
    have hv : viewCoord (none :: iR) c' = restrictR (D :: sh_b.reverse) c := by
      refine viewCoord_restrict _ _ _ (by simp [hiRl]) fun k t hk => ?_
      obtain ⟨k', rfl, hs, rfl⟩ := (hget k t).1 hk
      unfold restrictR
      split
      · rename_i h1
        have h2 : axisLen sh_b k' = 1 := h1
        have := hiv k'
        rw [← hs.2.2, h2] at this
        omega
      · exact (hm k' hs.1 hs).symm
    have h0 : c' 0 = c 0 := by
      rw [hc']
      show (if D = 1 then 0 else c 0) = c 0
      have := hc 0
      rw [axisLen_append_one] at this
      simp only [if_true] at this
      split
      · omega
      · rfl
    have hup : ∀ d, viewCoord (none :: iR) (Function.update c' 0 d) =
        Function.update (restrict B.shape c) 0 d := by
      intro d
      have hr : restrict B.shape c = restrictR (D :: sh_b.reverse) c := by
        rw [← restrict_reverse]
        congr 1
        rw [← hBr, List.reverse_reverse]
      rw [hr, ← hv]
      funext k
      cases k with
      | zero => simp [viewCoord, consC]
      | succ k =>
        rw [Function.update_of_ne (by omega)]
        show viewCoord iR (fun k => Function.update c' 0 d (k + 1)) k = viewCoord iR (fun k => c' (k + 1)) k
        congr 1
    simp only [hup, h0]
    rfl
  · rw [if_neg hm, if_neg (fun h => hm (hsel.1 h))]

/-- The last index tuple that agrees with the given coordinates. -/
theorem last_match (s : List Nat) (q : Nat → Option Nat) (hs : ∀ d ∈ s, 0 < d)
    (hq : ∀ k < s.length, ∀ t, q k = some t → t < axisLen s k) :
    ∃ L₁ i L₂, indices s = L₁ ++ i :: L₂ ∧ (∀ k < s.length, coord i k = (q k).getD (axisLen s k - 1)) ∧
      ∀ j ∈ L₂, ∃ k < s.length, ∃ t, q k = some t ∧ coord j k ≠ t := by
  induction s with
  | nil => exact ⟨[], [], [], rfl, fun k hk => by simp at hk, fun j hj => by simp at hj⟩
  | cons d ds ih =>
    have hax : ∀ k < ds.length, axisLen (d :: ds) k = axisLen ds k := fun k hk => by
      rw [axisLen_cons, if_neg (by omega)]
    have hd : axisLen (d :: ds) ds.length = d := by rw [axisLen_cons, if_pos rfl]
    obtain ⟨L₁, i, L₂, h1, h2, h3⟩ := ih (fun e he => hs e (by simp [he])) fun k hk t ht => by
      rw [← hax k hk]
      exact hq k (by simp; omega) t ht
    have hil : i.length = ds.length := length_of_mem_indices (by rw [h1]; simp)
    have hL₂l : ∀ j ∈ L₂, j.length = ds.length := fun j hj =>
      length_of_mem_indices (by rw [h1]; simp [hj])
    set t := (q ds.length).getD (d - 1) with ht
    have hd0 : 0 < d := hs d (by simp)
    have htd : t < d := by
      cases hqd : q ds.length with
      | none => simp [ht, hqd]; omega
      | some t' =>
        have := hq ds.length (by simp) t' hqd
        rw [hd] at this
        simpa [ht, hqd] using this
    have hrange : List.range d = List.range t ++ t :: (List.range' (t + 1) (d - (t + 1))) := by
      apply List.ext_getElem
      · simp; omega
      · intro n h1 h2
        simp only [List.getElem_range]
        rcases Nat.lt_trichotomy n t with h | h | h
        · rw [List.getElem_append_left (by simpa using h)]; simp
        · subst h
          rw [List.getElem_append_right (by simp)]
          simp
        · rw [List.getElem_append_right (by simp; omega)]
          simp only [List.length_range]
          obtain ⟨m, rfl⟩ : ∃ m, n = t + 1 + m := ⟨n - (t + 1), by omega⟩
          have : t + 1 + m - t = m + 1 := by omega
          simp only [this, List.getElem_cons_succ, List.getElem_range']
          omega
    refine ⟨(List.range t).flatMap (fun u => (indices ds).map (u :: ·)) ++ L₁.map (t :: ·), t :: i,
      L₂.map (t :: ·) ++ (List.range' (t + 1) (d - (t + 1))).flatMap fun u => (indices ds).map (u :: ·),
      ?_, ?_, ?_⟩
    · show (List.range d).flatMap _ = _
      rw [hrange, List.flatMap_append, List.flatMap_cons]
      nth_rewrite 2 [h1]
      simp
    · intro k hk
      rw [coord_cons, hil]
      by_cases e : k = ds.length
      · subst e
        rw [Function.update_self, hd]
      · have hk' : k < ds.length := by simp at hk; omega
        rw [Function.update_of_ne e, h2 k hk', hax k hk']
    · intro j hj
      rw [List.mem_append] at hj
      rcases hj with hj | hj
      · obtain ⟨j', hj', rfl⟩ := List.mem_map.1 hj
        obtain ⟨k, hk, u, hu, hne⟩ := h3 j' hj'
        refine ⟨k, by simp; omega, u, hu, ?_⟩
        rw [coord_cons, hL₂l j' hj', Function.update_of_ne (by omega)]
        exact hne
      · obtain ⟨u, hu, hj⟩ := List.mem_flatMap.1 hj
        obtain ⟨j', hj', rfl⟩ := List.mem_map.1 hj
        have hu' : t + 1 ≤ u ∧ u < t + 1 + (d - (t + 1)) := by
          simpa [List.mem_range'_1] using hu
        cases hqd : q ds.length with
        | none => simp [ht, hqd] at hu'; omega
        | some t' =>
          refine ⟨ds.length, by simp, t', hqd, ?_⟩
          rw [coord_cons, length_of_mem_indices hj', Function.update_self]
          simp [ht, hqd] at hu'
          omega

theorem fold_spec [Zero α] (sh_b : List Nat) (D : Nat) (hB : B.shape = sh_b ++ [D]) (sh : List Nat)
    (hsh : IsBroadcast [U.shape, sh_b] sh) (hlen : sh.length ≤ sh_b.length + 1)
    (L : List (List Nat)) (hL : ∀ i ∈ L, i ∈ indices U.shape) (out : Arr α)
    (hout : out.shape = sh ++ [D]) :
    ∃ out', L.foldlM (cholSolveStep solve U B sh) out = .ok out' ∧ out'.shape = sh ++ [D] ∧
      ∀ c, ValidIn (sh ++ [D]) c →
        ((∀ j ∈ L, ¬ ∀ k < U.shape.length, sharedAxis U.shape sh_b k → c (k + 1) = coord j k) →
          out'.get c = out.get c) ∧
        ∀ L₁ i L₂, L = L₁ ++ i :: L₂ →
          (∀ k < U.shape.length, sharedAxis U.shape sh_b k → c (k + 1) = coord i k) →
          (∀ j ∈ L₂, ¬ ∀ k < U.shape.length, sharedAxis U.shape sh_b k → c (k + 1) = coord j k) →
          out'.get c = solve (U.get (coord i)) (vectorAt B c) (c 0) := by
  induction L generalizing out with
  | nil =>
    refine ⟨out, rfl, hout, fun c _ => ⟨fun _ => rfl, fun L₁ i L₂ h => ?_⟩⟩
    cases L₁ <;> cases h
  | cons j L ih =>
    obtain ⟨o1, h1, hs1, hg1⟩ := cholSolveStep_spec solve U B sh_b D hB sh hsh hlen j (hL j (by simp)) out hout
    obtain ⟨o2, h2, hs2, hg2⟩ := ih (fun i hi => hL i (by simp [hi])) o1 hs1
    refine ⟨o2, ?_, hs2, fun c hc => ⟨fun hn => ?_, fun L₁ i L₂ h hi hn => ?_⟩⟩
    · rw [List.foldlM_cons, h1]
      exact h2
    · rw [(hg2 c hc).1 fun k hk => hn k (by simp [hk]), hg1 c hc, if_neg (hn j (by simp))]
    · cases L₁ with
      | nil =>
        injection h with ha hb
        subst ha hb
        rw [(hg2 c hc).1 hn, hg1 c hc, if_pos hi]
      | cons a L₁ =>
        injection h with ha hb
        exact (hg2 c hc).2 L₁ i L₂ hb hi hn

/-- **C49** What `chol_solve` and `solve_triangular` compute if the broadcast plates have at most one
axis more than the plates of `b`: each plate gets the solution of its own vector, but with the *last*
matrix along each axis on which the lengths of `U` and `b` differ. -/
theorem C49_values_partial [Zero α] (sh_b : List Nat) (D : Nat) (hB : B.shape = sh_b ++ [D])
    (sh : List Nat) (hsh : IsBroadcast [U.shape, sh_b] sh) (hlen : sh.length ≤ sh_b.length + 1) :
    ∃ out, cholSolvePlates solve U B = .ok out ∧ out.shape = sh ++ [D] ∧
      ∀ c, ValidIn (sh ++ [D]) c → ∃ u : Nat → Nat,
        (∀ k < U.shape.length, u k =
          if sharedAxis U.shape sh_b k then c (k + 1) else axisLen U.shape k - 1) ∧
        out.get c = solve (U.get u) (vectorAt B c) (c 0) := by
  have hdl : B.shape.dropLast = sh_b := by rw [hB]; simp
  have hdr : B.shape.drop (B.shape.length - 1) = [D] := by rw [hB]; simp
  obtain ⟨out, h1, h2, h3⟩ := fold_spec solve U B sh_b D hB sh hsh hlen (indices U.shape)
    (fun i hi => hi) { shape := sh ++ [D], get := fun _ => 0 } rfl
  refine ⟨out, ?_, h2, fun c hc => ?_⟩
  · unfold cholSolvePlates
    rw [hdl, (broadcastedShape_ok _ _).2 hsh, hdr, nestedIterator_eq]
    exact h1
  · have hcs : ∀ k, c (k + 1) < axisLen sh k := fun k => by
      have := hc (k + 1)
      rwa [axisLen_append_one, if_neg (by omega), Nat.add_sub_cancel] at this
    have hfit : ∀ k, axisLen U.shape k = 1 ∨ axisLen U.shape k = axisLen sh k := fun k =>
      hsh.fits k U.shape (by simp)
    have hpos : ∀ d ∈ U.shape, 0 < d := by
      intro d hd
      obtain ⟨p, hp, rfl⟩ := List.getElem_of_mem hd
      have hk := hfit (U.shape.length - 1 - p)
      have hcs := hcs (U.shape.length - 1 - p)
      have hax : axisLen U.shape (U.shape.length - 1 - p) = U.shape[p] := by
        unfold axisLen
        rw [List.getElem?_reverse (by omega),
          show U.shape.length - 1 - (U.shape.length - 1 - p) = p by omega, List.getElem?_eq_getElem hp]
        rfl
      omega
    obtain ⟨L₁, i, L₂, hL, hi, hj⟩ := last_match U.shape
      (fun k => if sharedAxis U.shape sh_b k then some (c (k + 1)) else none) hpos (by
        intro k hk t ht
        split at ht
        · rename_i hs
          injection ht with ht
          subst ht
          rcases hfit k with h | h
          · rcases hsh.attained k with h' | ⟨s, hs', h'⟩
            · have := hcs k; omega
            · have hh : s = U.shape ∨ s = sh_b := by simpa using hs'
              have := hcs k
              have := hs.2.2
              rcases hh with rfl | rfl <;> omega
          · rw [h]; exact hcs k
        · cases ht)
    refine ⟨coord i, fun k hk => ?_, (h3 c hc).2 L₁ i L₂ hL (fun k hk hs => ?_) fun j hj' hall => ?_⟩
    · rw [hi k hk]
      split <;> rfl
    · rw [hi k hk, if_pos hs]
      rfl
    · obtain ⟨k, hk, t, ht, hne⟩ := hj j hj'
      split at ht
      · rename_i hs
        injection ht with ht
        exact hne ((hall k hk hs).symm.trans ht)
      · cases ht

/-- **C49** If every non-unit plate axis of `U` is a plate axis of `b` of the same length (and `U` has at
most one axis more), each plate is solved with its own matrix. -/
theorem C49_own_matrix_partial [Zero α] (sh_b : List Nat) (D : Nat) (hB : B.shape = sh_b ++ [D])
    (hU : ∀ k, axisLen U.shape k = 1 ∨ (k < sh_b.length ∧ axisLen U.shape k = axisLen sh_b k))
    (hlen : U.shape.length ≤ sh_b.length + 1)
    (hget : ∀ c c', (∀ k < U.shape.length, c k = c' k) → U.get c = U.get c') :
    ∃ out, cholSolvePlates solve U B = .ok out ∧ IsBroadcast [U.shape, sh_b] out.shape.dropLast ∧
      ∀ c, ValidIn out.shape c →
        out.get c = solve (U.at fun k => c (k + 1)) (vectorAt B c) (c 0) := by
  have hcomp : Compatible [U.shape, sh_b] := by
    intro k s hs t ht
    have hs' : s = U.shape ∨ s = sh_b := by simpa using hs
    have ht' : t = U.shape ∨ t = sh_b := by simpa using ht
    have := hU k
    rcases hs' with rfl | rfl <;> rcases ht' with rfl | rfl <;> omega
  obtain ⟨sh, hsh⟩ := (exists_isBroadcast_iff _).2 hcomp
  have hl : sh.length ≤ sh_b.length + 1 := by
    rcases hsh.rank_le with h | ⟨s, hs, h⟩
    · omega
    · have hs' : s = U.shape ∨ s = sh_b := by simpa using hs
      rcases hs' with rfl | rfl <;> omega
  obtain ⟨out, h1, h2, h3⟩ := C49_values_partial solve U B sh_b D hB sh hsh hl
  refine ⟨out, h1, by rw [h2]; simpa using hsh, fun c hc => ?_⟩
  rw [h2] at hc
  obtain ⟨u, hu, he⟩ := h3 c hc
  rw [he]
  congr 1
  refine hget _ _ fun k hk => ?_
  rw [hu k hk]
  unfold restrict
  have hv := hc (k + 1)
  rw [axisLen_append_one, if_neg (by omega), Nat.add_sub_cancel] at hv
  by_cases hs : sharedAxis U.shape sh_b k
  · rw [if_pos hs]
    split
    · rename_i h1
      rcases hsh.attained k with h' | ⟨s, hs', h'⟩
      · omega
      · have hh : s = U.shape ∨ s = sh_b := by simpa using hs'
        have := hs.2.2
        rcases hh with rfl | rfl <;> omega
    · rfl
  · rw [if_neg hs]
    have h1 : axisLen U.shape k = 1 := by
      rcases hU k with h | h
      · exact h
      · exact absurd ⟨hk, h.1, h.2.symm⟩ hs
    rw [if_pos h1, h1]

end

/-- Scalar systems: `U` holds one-by-one matrices, here integers standing for multiplication. -/
def demoSolve (m : Int) (b : Nat → Int) (d : Nat) : Int := m * b d

/-- The values of a result on given coordinates. -/
def readOut (r : Except PyErr (Arr Int)) (cs : List (List Nat)) : Option (List Nat × List Int) :=
  match r with
  | .ok out => some (out.shape, cs.map fun i => out.get (coord i))
  | .error _ => none

/-- **C49** refuted: with two matrices and one vector, the first plate gets the solution of the second
system. -/
theorem C49_shared_vector_refuted :
    readOut (cholSolvePlates demoSolve ⟨[2], fun c => if c 0 = 0 then 10 else 20⟩ ⟨[1], fun _ => 7⟩)
      [[0, 0], [1, 0]] = some ([2, 1], [140, 140]) := by decide +kernel

/-- **C49** refuted: leading unit axes of `U`, two more than `b` has, give an `IndexError`. -/
theorem C49_leading_unit_axes_refuted :
    (match cholSolvePlates demoSolve ⟨[1, 1, 3], fun c => c 0⟩ ⟨[3, 1], fun c => c 1⟩ with
      | .error .indexError => true
      | _ => false) = true := by decide +kernel

/-- Matrices on plates `(3, 1)`, vectors on plates `(2, 3, 4)`. -/
example : readOut (cholSolvePlates demoSolve ⟨[3, 1], fun c => c 1⟩
    ⟨[2, 3, 4, 2], fun c => 1000 * c 3 + 100 * c 2 + 10 * c 1 + c 0⟩) [[1, 2, 3, 1]] =
    some ([2, 3, 4, 2], [2 * 1231]) := by decide +kernel

example : ∀ k, axisLen [3, 1] k = 1 ∨ (k < [2, 3, 4].length ∧ axisLen [3, 1] k = axisLen [2, 3, 4] k) := by
  intro k
  rcases k with _ | _ | k
  · exact Or.inl rfl
  · exact Or.inr ⟨by decide, rfl⟩
  · exact Or.inl (axisLen_of_ge (by simp))

/-- **C49** `chol_inv` inverts each plate. -/
theorem C49_chol_inv {M : Type} (solve : M → M → M) (U : Arr M) (one : M) :
    (cholInvPlates solve U one).shape = U.shape ∧
    ∀ c, ValidIn U.shape c → (cholInvPlates solve U one).get c = solve (U.get c) one := by
  have hsel : ∀ i ∈ indices U.shape, ∀ c, ValidIn U.shape c →
      (ixSelects (i.map some).reverse c = true ↔ coord i = c) := by
    intro i hi c hc
    rw [ixSelects_iff]
    have hil := length_of_mem_indices hi
    constructor
    · intro h
      funext k
      by_cases hk : k < i.length
      · have hk' : k < i.reverse.length := by simpa using hk
        have := h k (i.reverse[k]) (by
          rw [← List.map_reverse, List.getElem?_map, List.getElem?_eq_getElem hk']; rfl)
        rw [this]
        unfold coord
        rw [List.getD_eq_getElem?_getD, List.getElem?_eq_getElem hk']
        rfl
      · have h1 := hc k
        have h2 := coord_valid hi k
        rw [axisLen_of_ge (by omega)] at h1 h2
        omega
    · rintro rfl k t hk
      rw [← List.map_reverse, List.getElem?_map] at hk
      unfold coord
      rw [List.getD_eq_getElem?_getD]
      cases hh : i.reverse[k]? with
      | none => rw [hh] at hk; cases hk
      | some v => rw [hh] at hk; simpa using hk
  let step : Arr M → List Nat → Arr M := fun V i =>
    { V with get := fun c =>
        if ixSelects (i.map some).reverse c then solve (U.get c) (V.get c) else V.get c }
  have hgen : ∀ (L : List (List Nat)), (∀ i ∈ L, i ∈ indices U.shape) → L.Nodup → ∀ V : Arr M,
      (L.foldl step V).shape = V.shape ∧
      ∀ c, ValidIn U.shape c → ∀ i ∈ indices U.shape, coord i = c →
        (L.foldl step V).get c = if i ∈ L then solve (U.get c) (V.get c) else V.get c := by
    intro L
    induction L with
    | nil => intro _ _ V; exact ⟨rfl, fun c _ i _ _ => by simp⟩
    | cons j L ih =>
      intro hL hnd V
      obtain ⟨ih1, ih2⟩ := ih (fun i hi => hL i (by simp [hi])) (List.nodup_cons.1 hnd).2 (step V j)
      refine ⟨ih1, fun c hc i hi hic => ?_⟩
      rw [List.foldl_cons, ih2 c hc i hi hic]
      have hst : (step V j).get c =
        if ixSelects (j.map some).reverse c then solve (U.get c) (V.get c) else V.get c := rfl
      have hj := hsel j (hL j (by simp)) c hc
      by_cases e : i = j
      · subst e
        rw [if_neg (List.nodup_cons.1 hnd).1, hst, if_pos (hj.2 hic), if_pos (by simp)]
      · have hne : ¬ ixSelects (j.map some).reverse c = true := by
          rw [hj]
          intro hjc
          apply e
          have hl : i.length = j.length := by
            rw [length_of_mem_indices hi, length_of_mem_indices (hL j (by simp))]
          have hij : coord i = coord j := hic.trans hjc.symm
          rw [← List.reverse_inj]
          apply List.ext_getElem (by simpa using hl)
          intro k h1 h2
          have := congrFun hij k
          unfold coord at this
          rw [List.getD_eq_getElem?_getD, List.getD_eq_getElem?_getD, List.getElem?_eq_getElem h1,
            List.getElem?_eq_getElem h2] at this
          exact this
        rw [hst, if_neg hne]
        simp [e]
  have hnd : ∀ s : List Nat, (indices s).Nodup := by
    intro s
    induction s with
    | nil => simp [indices]
    | cons d ds ih =>
      unfold indices
      rw [List.nodup_flatMap]
      refine ⟨fun t _ => ih.map fun a b h => by injection h, ?_⟩
      refine List.nodup_range.imp fun {a b} hab => ?_
      intro x hx hx'
      obtain ⟨y, _, rfl⟩ := List.mem_map.1 hx
      obtain ⟨z, _, h⟩ := List.mem_map.1 hx'
      injection h with h _
      exact hab h.symm
  unfold cholInvPlates
  rw [nestedIterator_eq]
  obtain ⟨h1, h2⟩ := hgen (indices U.shape) (fun i hi => hi) (hnd _)
    { shape := U.shape, get := fun _ => one }
  refine ⟨h1, fun c hc => ?_⟩
  obtain ⟨i, hi, hic⟩ := exists_index_of_valid hc
  exact (h2 c hc i hi hic).trans (if_pos hi)

/-- **C49** The Cholesky factors of positive definite matrices on the plates of `U`, vectors on plates of
which these are sub-plates: the result solves the system of each plate. -/
theorem C49_solves_partial {D : Nat} (A U : Arr (Matrix (Fin D) (Fin D) ℝ)) (hAU : A.shape = U.shape)
    (hU : ∀ c, ValidIn U.shape c → IsChol (A.get c) (U.get c))
    (hget : ∀ c c', (∀ k < U.shape.length, c k = c' k) → U.get c = U.get c')
    (B : Arr ℝ) (sh_b : List Nat) (hB : B.shape = sh_b ++ [D])
    (hsub : ∀ k, axisLen U.shape k = 1 ∨ (k < sh_b.length ∧ axisLen U.shape k = axisLen sh_b k))
    (hlen : U.shape.length ≤ sh_b.length + 1) :
    ∃ out, cholSolvePlates choSolveNat U B = .ok out ∧ IsBroadcast [U.shape, sh_b] out.shape.dropLast ∧
      ∀ c, ValidIn out.shape c → ∀ m : Fin D,
        ∑ d : Fin D, A.at (fun k => c (k + 1)) m d * out.get (Function.update c 0 d) =
          B.at (Function.update c 0 m) := by
  obtain ⟨out, h1, h2, h3⟩ := C49_own_matrix_partial choSolveNat U B sh_b D hB hsub hlen hget
  have hos : axisLen out.shape 0 = D := by
    have hbc : ∃ sh, IsBroadcast [U.shape, sh_b] sh := ⟨_, h2⟩
    obtain ⟨sh, hsh⟩ := hbc
    obtain ⟨o', h1', h2', _⟩ := C49_values_partial choSolveNat U B sh_b D hB sh hsh (by
      rcases hsh.rank_le with h | ⟨s, hs, h⟩
      · omega
      · have hs' : s = U.shape ∨ s = sh_b := by simpa using hs
        rcases hs' with rfl | rfl <;> omega)
    rw [h1] at h1'
    injection h1' with h1'
    rw [h1', h2', axisLen_append_one, if_pos rfl]
  refine ⟨out, h1, h2, fun c hc m => ?_⟩
  have hvc : ∀ d : Fin D, ValidIn out.shape (Function.update c 0 d) := by
    intro d k
    by_cases e : k = 0
    · subst e; rw [Function.update_self, hos]; exact d.2
    · rw [Function.update_of_ne e]; exact hc k
  have hUat : ∀ k, axisLen U.shape k = 1 ∨ axisLen U.shape k = axisLen out.shape.dropLast k :=
    fun k => h2.fits k U.shape (by simp)
  have hdl : ∀ k, axisLen out.shape.dropLast k = axisLen out.shape (k + 1) := by
    intro k
    obtain ⟨l, x, hl⟩ : ∃ l x, out.shape = l ++ [x] := by
      rcases List.eq_nil_or_concat out.shape with h | ⟨l, x, h⟩
      · have hb : ∃ sh, IsBroadcast [U.shape, sh_b] sh := ⟨_, h2⟩
        obtain ⟨o', h1', h2', _⟩ := C49_values_partial choSolveNat U B sh_b D hB _ h2 (by
          rw [h]; simp)
        rw [h1] at h1'
        injection h1' with h1'
        rw [← h1', h] at h2'
        simp at h2'
      · exact ⟨l, x, by rw [h, List.concat_eq_append]⟩
    rw [hl, axisLen_append_one, if_neg (by omega), List.dropLast_concat, Nat.add_sub_cancel]
  have hval : ValidIn U.shape (restrict U.shape fun k => c (k + 1)) := by
    intro k
    unfold restrict
    rcases hUat k with h | h
    · rw [if_pos h, h]; exact Nat.one_pos
    · split
      · omega
      · rw [h, hdl]; exact hc (k + 1)
  have hchol : IsChol (A.at fun k => c (k + 1)) (U.at fun k => c (k + 1)) := by
    unfold Arr.at
    rw [hAU]
    exact hU _ hval
  have hx : ∀ d : Fin D, out.get (Function.update c 0 d) =
      cholSolve (U.at fun k => c (k + 1)) (fun j : Fin D => B.at (Function.update c 0 (j : Nat))) d := by
    intro d
    rw [h3 _ (hvc d)]
    unfold choSolveNat
    rw [Function.update_self, dif_pos d.2]
    have e1 : (fun k => Function.update c 0 (d : Nat) (k + 1)) = fun k => c (k + 1) := by
      funext k
      rw [Function.update_of_ne (by omega)]
    rw [e1]
    congr 1
    funext j
    unfold vectorAt Arr.at
    congr 1
    funext k
    by_cases e : k = 0
    · subst e
      rw [Function.update_self]
      unfold restrict
      rw [hB, axisLen_append_one, if_pos rfl, Function.update_self]
      split
      · have := j.2; omega
      · rfl
    · rw [Function.update_of_ne e]
      unfold restrict
      rw [Function.update_of_ne e, Function.update_of_ne e]
  have hsol : (A.at fun k => c (k + 1)).mulVec
      (cholSolve (U.at fun k => c (k + 1)) fun j : Fin D => B.at (Function.update c 0 (j : Nat))) =
      fun j : Fin D => B.at (Function.update c 0 (j : Nat)) := by
    rw [hchol.solve, Matrix.mulVec_mulVec,
      Matrix.mul_nonsing_inv _ ((Matrix.isUnit_iff_isUnit_det _).1 hchol.posDef.isUnit), Matrix.one_mulVec]
  have := congrFun hsol m
  rw [← this, Matrix.mulVec, dotProduct]
  exact Finset.sum_congr rfl fun d _ => by rw [hx d]

/-- **C49** `chol_inv` of Cholesky factors gives the inverse matrix on every plate. -/
theorem C49_chol_inv_inverse {D : Nat} (A U : Arr (Matrix (Fin D) (Fin D) ℝ))
    (hU : ∀ c, ValidIn U.shape c → IsChol (A.get c) (U.get c)) :
    (cholInvPlates cholSolveM U 1).shape = U.shape ∧
    ∀ c, ValidIn U.shape c → (cholInvPlates cholSolveM U 1).get c * A.get c = 1 := by
  refine ⟨(C49_chol_inv cholSolveM U 1).1, fun c hc => ?_⟩
  rw [(C49_chol_inv cholSolveM U 1).2 c hc]
  show cholInv (U.get c) * A.get c = 1
  rw [(hU c hc).inv]
  exact Matrix.nonsing_inv_mul _ (Matrix.isUnit_iff_isUnit_det _ |>.1 (hU c hc).posDef.isUnit)

/-- A factor: `[[2, 1], [0, 3]]` for `[[4, 2], [2, 10]]`. -/
example : IsChol (!![4, 2; 2, 10] : Matrix (Fin 2) (Fin 2) ℝ) !![2, 1; 0, 3] := by
  refine ⟨?_, ?_, ?_⟩
  · intro i j h
    fin_cases i <;> fin_cases j <;> simp_all
  · intro i
    fin_cases i <;> norm_num
  · ext i j
    fin_cases i <;> fin_cases j <;> norm_num [Matrix.mul_apply, Fin.sum_univ_two]

end Verif
