import Verif.Props.CholSolve
import Verif.Props.CountArrays
import Verif.Model.BandPlates

/-!
# The steps of `block_banded_solve` on arrays, plate by plate
-/

namespace Verif
open Spec Matrix

variable {D : Nat}

theorem isBroadcast_of_to {s t : List Nat} (h : BroadcastsTo s t) : IsBroadcast [s, t] t where
  rank_ge := by simpa using h.1
  rank_le := .inr ⟨t, by simp, rfl⟩
  fits k u hu := by
    rcases List.mem_cons.1 hu with rfl | hu
    · exact h.2 k
    · rw [List.mem_singleton.1 hu]; exact .inr rfl
  attained k := .inr ⟨t, by simp, rfl⟩

theorem map2_right {α β γ : Type} (f : α → β → γ) {X : Arr α} {Y : Arr β} {P : List Nat} (hX : BroadcastsTo X.shape P)
    (hY : Y.shape = P) : ∃ r, npMap2 f X Y = .ok r ∧ r.shape = P ∧ ∀ c, r.at c = f (X.at c) (Y.at c) := by
  obtain ⟨r, h1, h2, h3, h4⟩ := npMap2_any f hX (hY ▸ BroadcastsTo_refl P : BroadcastsTo Y.shape P)
  exact ⟨r, h1, isBroadcast_unique (hY ▸ h2) (isBroadcast_of_to hX), h4⟩

theorem map2_left {α β γ : Type} (f : α → β → γ) {X : Arr α} {Y : Arr β} {P : List Nat} (hX : X.shape = P)
    (hY : BroadcastsTo Y.shape P) : ∃ r, npMap2 f X Y = .ok r ∧ r.shape = P ∧ ∀ c, r.at c = f (X.at c) (Y.at c) := by
  obtain ⟨r, h1, h2, h3, h4⟩ := npMap2_any f (hX ▸ BroadcastsTo_refl P : BroadcastsTo X.shape P) hY
  exact ⟨r, h1, isBroadcast_unique (isBroadcast_swap (hX ▸ h2)) (isBroadcast_of_to hY), h4⟩

theorem fill_ok {α : Type} {P : List Nat} {v : Arr α} (h : BroadcastsTo v.shape P) :
    ∃ w, fillPlates P v = .ok w ∧ w.shape = P ∧ (∀ c, w.at c = v.at c) ∧
      ∀ c c', (∀ k < P.length, c k = c' k) → w.get c = w.get c' := by
  refine ⟨⟨P, v.at⟩, ?_, rfl, fun c => at_restrict h c, fun c c' hc => ?_⟩
  · unfold fillPlates
    rw [if_pos]
    rw [List.all_eq_true]
    intro k _
    have := h.2 k
    simpa using this
  · show v.at c = v.at c'
    apply v.at_congr
    intro k hk
    refine hc k ?_
    by_contra hk'
    apply hk
    have := h.1
    unfold axisLen
    rw [List.getElem?_eq_none (by simp; omega)]
    rfl

theorem at_of_shape {α : Type} {X : Arr α} {P : List Nat} (h : X.shape = P) {c : Nat → Nat} (hc : ValidIn P c) :
    X.at c = X.get c := by
  unfold Arr.at
  congr 1
  funext k
  unfold restrict
  split
  · rename_i e
    have := hc k
    rw [h] at e
    omega
  · rfl

theorem chol_error {C : Matrix (Fin D) (Fin D) ℝ} {e : PyErr} (h : chol C = .error e) : e = .exception := by
  unfold chol at h
  split at h
  · cases h
  · injection h with h; exact h.symm

theorem cholPlates_ok {C : Arr (Matrix (Fin D) (Fin D) ℝ)} {P : List Nat} (hC : C.shape = P)
    (h : ∀ c, ValidIn P c → ∃ U, chol (C.get c) = .ok U) :
    ∃ R, cholPlates C = .ok R ∧ R.shape = P ∧ ∀ c, ValidIn P c → chol (C.get c) = .ok (R.get c) := by
  have hm : ∀ L : List (List Nat), (∀ i ∈ L, i ∈ indices P) →
      ∃ r, L.mapM (fun i => chol (C.get (coord i))) = .ok r := by
    intro L
    induction L with
    | nil => intro _; exact ⟨[], rfl⟩
    | cons i L ih =>
      intro hL
      obtain ⟨r, hr⟩ := ih fun j hj => hL j (by simp [hj])
      obtain ⟨U, hU⟩ := h (coord i) (coord_valid (hL i (by simp)))
      exact ⟨U :: r, by simp only [List.mapM_cons, hU, hr, bind, Except.bind, pure, Except.pure]⟩
  obtain ⟨r, hr⟩ := hm (indices P) fun i hi => hi
  refine ⟨⟨C.shape, fun c => match chol (C.get c) with | .ok U => U | .error _ => 0⟩, ?_, hC, fun c hc => ?_⟩
  · unfold cholPlates
    rw [nestedIterator_eq, hC, hr]
    rfl
  · obtain ⟨U, hU⟩ := h c hc
    simp only [hU]

theorem cholPlates_error {C : Arr (Matrix (Fin D) (Fin D) ℝ)} {P : List Nat} (hC : C.shape = P)
    {c : Nat → Nat} (hc : ValidIn P c) (h : ∀ U, chol (C.get c) ≠ .ok U) : cholPlates C = .error .exception := by
  have hm : ∀ L : List (List Nat), (∃ i ∈ L, coord i = c) →
      L.mapM (fun i => chol (C.get (coord i))) = .error .exception := by
    intro L
    induction L with
    | nil => rintro ⟨i, hi, _⟩; simp at hi
    | cons i L ih =>
      rintro ⟨j, hj, hjc⟩
      cases hi : chol (C.get (coord i)) with
      | error e =>
        rw [chol_error hi] at hi
        simp only [List.mapM_cons, hi, bind, Except.bind]
      | ok U =>
        rcases List.mem_cons.1 hj with rfl | hj
        · rw [hjc] at hi; exact absurd hi (h U)
        · simp only [List.mapM_cons, hi, ih ⟨j, hj, hjc⟩, bind, Except.bind]
  obtain ⟨i, hi, hic⟩ := exists_index_of_valid hc
  unfold cholPlates
  rw [nestedIterator_eq, hC, hm _ ⟨i, hi, hic⟩]
  rfl

theorem atLast_zero (c : Nat → Nat) (t : Nat) : atLast c t 0 = t := rfl
theorem atLast_succ (c : Nat → Nat) (t k : Nat) : atLast c t (k + 1) = c k := rfl

theorem atLast_valid {P : List Nat} {c : Nat → Nat} {n t : Nat} (hc : ValidIn P c) (ht : t < n) : ValidIn (P ++ [n]) (atLast c t) := by
  intro k
  rw [axisLen_append_one]
  cases k with
  | zero => simpa [atLast] using ht
  | succ k => simpa [atLast] using hc k

theorem update_atLast (c : Nat → Nat) (t d : Nat) : Function.update (atLast c t) 0 d = atLast c d := by
  funext k
  cases k with
  | zero => simp [atLast]
  | succ k => rw [Function.update_of_ne (by omega)]; rfl

theorem restrict_atLast {P : List Nat} {n t : Nat} (c : Nat → Nat) (ht : t < n) :
    restrict (P ++ [n]) (atLast c t) = atLast (restrict P c) t := by
  funext k
  unfold restrict
  rw [axisLen_append_one]
  cases k with
  | zero =>
    simp only [if_true, atLast]
    split
    · omega
    · rfl
  | succ k => simp [atLast]

/-- `chol_solve(U, b)` if the vectors have all the plates of the matrices -/
theorem cholSolveVec_ok {U : Arr (Matrix (Fin D) (Fin D) ℝ)} {b : Arr (Fin D → ℝ)} {pV pX : List Nat} (hU : U.shape = pV)
    (hget : ∀ c c', (∀ k < pV.length, c k = c' k) → U.get c = U.get c') (hb : b.shape = pX) (hs : BroadcastsTo pV pX) :
    ∃ r, cholSolveVec U b = .ok r ∧ r.shape = pX ∧ ∀ c, ValidIn pX c → r.at c = cholSolve (U.at c) (b.at c) := by
  subst hU
  set b' : Arr ℝ := { shape := b.shape ++ [D], get := fun c => if h : c 0 < D then b.get (fun k => c (k + 1)) ⟨c 0, h⟩ else 0 }
    with hb'
  obtain ⟨out, h1, h2, -⟩ := C49_values_partial choSolveNat U b' pX D (by rw [hb', hb]) pX (isBroadcast_of_to hs) (by omega)
  obtain ⟨out', g1, -, g3⟩ := C49_own_matrix_partial choSolveNat U b' pX D (by rw [hb', hb]) (fun k => by
    rcases hs.2 k with h | h
    · exact .inl h
    · by_cases hk : k < pX.length
      · exact .inr ⟨hk, h⟩
      · left
        rw [h]
        unfold axisLen
        rw [List.getElem?_eq_none (by simp; omega)]
        rfl) (by have := hs.1; omega) hget
  obtain rfl : out = out' := by rw [h1] at g1; injection g1
  refine ⟨⟨out.shape.dropLast, fun c d => out.get (atLast c d)⟩, ?_, by simp [h2], fun c hc => ?_⟩
  · unfold cholSolveVec
    simp only [← hb', h1, bind, Except.bind, pure, Except.pure]
  · rw [at_of_shape (P := pX) (by simp [h2]) hc]
    funext d
    show out.get (atLast c d) = _
    rw [g3 _ (by rw [h2]; exact atLast_valid hc d.2)]
    unfold choSolveNat
    rw [atLast_zero, dif_pos d.2]
    show cholSolve (U.at c) _ d = _
    congr 1
    funext j
    unfold vectorAt
    have e : restrict b'.shape (atLast c d) = atLast (restrict pX c) d := by
      show restrict (b.shape ++ [D]) _ = _
      rw [hb]
      exact restrict_atLast c d.2
    rw [e, update_atLast]
    show (if h : (j : Nat) < D then b.get (restrict pX c) ⟨j, h⟩ else 0) = _
    rw [dif_pos j.2, ← hb]
    rfl

theorem isBroadcast_snoc {pV pB : List Nat} (hs : BroadcastsTo pB pV) : IsBroadcast [pV ++ [1], pB ++ [D]] (pV ++ [D]) := by
  refine ⟨?_, ?_, ?_, ?_⟩
  · intro s hs'
    have h0 := hs.1
    rcases List.mem_cons.1 hs' with rfl | hs'
    · simp
    · rw [List.mem_singleton.1 hs']; simpa using h0
  · exact .inr ⟨pV ++ [1], by simp, by simp⟩
  · intro k s hs'
    rcases List.mem_cons.1 hs' with rfl | hs'
    · rw [axisLen_append_one, axisLen_append_one]
      split
      · exact .inl rfl
      · exact .inr rfl
    · rw [List.mem_singleton.1 hs', axisLen_append_one, axisLen_append_one]
      split
      · exact .inr rfl
      · exact hs.2 _
  · intro k
    by_cases hk : k = 0
    · exact .inr ⟨pB ++ [D], by simp, by rw [axisLen_append_one, axisLen_append_one, if_pos hk, if_pos hk]⟩
    · exact .inr ⟨pV ++ [1], by simp, by rw [axisLen_append_one, axisLen_append_one, if_neg hk, if_neg hk]⟩

/-- `chol_solve(U, B, matrix=True)` if the right-hand sides have all the plates of the matrices -/
theorem cholSolveMat_ok {U B : Arr (Matrix (Fin D) (Fin D) ℝ)} {pV pB : List Nat} (hU : U.shape = pV)
    (hget : ∀ c c', (∀ k < pV.length, c k = c' k) → U.get c = U.get c') (hB : B.shape = pB) (hs : BroadcastsTo pB pV)
    (hall : ∀ k, axisLen pV k = 1 ∨ axisLen pB k = axisLen pV k) (hlen : pV.length ≤ pB.length + 1) :
    ∃ r, cholSolveMat U B = .ok r ∧ r.shape = pV ∧ ∀ c, ValidIn pV c → r.at c = cholSolveM (U.at c) (B.at c) := by
  subst hU
  set B' : Arr ℝ := { shape := B.shape ++ [D] ++ [D]
                      get := fun c => if h : c 0 < D ∧ c 1 < D then B.get (fun k => c (k + 2)) ⟨c 0, h.1⟩ ⟨c 1, h.2⟩ else 0 }
    with hB'
  set U' : Arr (Matrix (Fin D) (Fin D) ℝ) := { shape := U.shape ++ [1], get := fun c => U.get fun k => c (k + 1) } with hU'
  have hsh : IsBroadcast [U'.shape, pB ++ [D]] (U.shape ++ [D]) := isBroadcast_snoc hs
  have hBs : B'.shape = pB ++ [D] ++ [D] := by rw [hB', hB]
  obtain ⟨out, h1, h2, -⟩ := C49_values_partial choSolveNat U' B' (pB ++ [D]) D hBs (U.shape ++ [D]) hsh (by simp; omega)
  obtain ⟨out', g1, -, g3⟩ := C49_own_matrix_partial choSolveNat U' B' (pB ++ [D]) D hBs (fun k => by
    show axisLen (U.shape ++ [1]) k = 1 ∨ k < _ ∧ axisLen (U.shape ++ [1]) k = _
    rw [axisLen_append_one, axisLen_append_one]
    by_cases hk : k = 0
    · rw [if_pos hk]; exact .inl rfl
    · rw [if_neg hk, if_neg hk]
      rcases hall (k - 1) with h | h
      · exact .inl h
      · by_cases hk' : k - 1 < pB.length
        · exact .inr ⟨by simp; omega, h.symm⟩
        · left
          rw [← h]
          unfold axisLen
          rw [List.getElem?_eq_none (by simp; omega)]
          rfl) (by simp [hU']; omega) (fun c c' hcc => by
      refine hget _ _ fun k hk => hcc (k + 1) ?_
      simp [hU']
      omega)
  obtain rfl : out = out' := by rw [h1] at g1; injection g1
  have hshape : out.shape.dropLast.dropLast = U.shape := by rw [h2]; simp
  refine ⟨⟨out.shape.dropLast.dropLast, fun c => of fun i j => out.get (atLast (atLast c j) i)⟩, ?_, hshape, fun c hc => ?_⟩
  · unfold cholSolveMat
    simp only [← hB', ← hU', h1, bind, Except.bind, pure, Except.pure]
  · rw [at_of_shape (P := U.shape) hshape hc]
    ext i j
    show out.get (atLast (atLast c j) i) = cholSolve (U.at c) (fun k => B.at c k j) i
    rw [g3 _ (by rw [h2]; exact atLast_valid (atLast_valid hc j.2) i.2)]
    unfold choSolveNat
    rw [atLast_zero, dif_pos i.2]
    have e1 : U'.at (fun k => atLast (atLast c j) i (k + 1)) = U.at c := by
      show U.get _ = U.get _
      apply hget
      intro k _
      show restrict (U.shape ++ [1]) (atLast c j) (k + 1) = restrict U.shape c k
      have e : axisLen (U.shape ++ [1]) (k + 1) = axisLen U.shape k := by rw [axisLen_append_one, if_neg (by omega)]; rfl
      simp only [restrict, e, atLast_succ]
    rw [e1]
    congr 1
    funext l
    unfold vectorAt
    have e : restrict B'.shape (atLast (atLast c j) i) = atLast (atLast (restrict pB c) j) i := by
      rw [hBs, restrict_atLast _ i.2, restrict_atLast _ j.2]
    rw [e, update_atLast]
    show (if h : (l : Nat) < D ∧ (j : Nat) < D then B.get (restrict pB c) ⟨l, h.1⟩ ⟨j, h.2⟩ else 0) = _
    rw [dif_pos ⟨l.2, j.2⟩, ← hB]
    rfl

/-- `chol_solve(U, B, matrix=True)` of one matrix `B` without plates: every plate gets the solution for the last matrix `U`. -/
theorem cholSolveMat_shared {U B : Arr (Matrix (Fin D) (Fin D) ℝ)} {K : Nat} (hU : U.shape = [K + 1])
    (hget : ∀ c c', (∀ k < 1, c k = c' k) → U.get c = U.get c') (hB : B.shape = []) :
    ∃ r, cholSolveMat U B = .ok r ∧ r.shape = [K + 1] ∧
      ∀ c, ValidIn [K + 1] c → r.at c = cholSolveM (U.get fun _ => K) (B.at c) := by
  set B' : Arr ℝ := { shape := B.shape ++ [D] ++ [D]
                      get := fun c => if h : c 0 < D ∧ c 1 < D then B.get (fun k => c (k + 2)) ⟨c 0, h.1⟩ ⟨c 1, h.2⟩ else 0 }
    with hB'
  set U' : Arr (Matrix (Fin D) (Fin D) ℝ) := { shape := U.shape ++ [1], get := fun c => U.get fun k => c (k + 1) } with hU'
  have hUs : U'.shape = [K + 1, 1] := by rw [hU', hU]; rfl
  have hBs : B'.shape = [D] ++ [D] := by rw [hB', hB]; rfl
  have hsh : IsBroadcast [U'.shape, [D]] [K + 1, D] := by
    rw [hUs]
    exact isBroadcast_snoc (pV := [K + 1]) (pB := []) ⟨by simp, fun k => .inl (by simp [axisLen])⟩
  obtain ⟨out, h1, h2, h3⟩ := C49_values_partial choSolveNat U' B' [D] D hBs [K + 1, D] hsh (by simp)
  have hshape : out.shape.dropLast.dropLast = [K + 1] := by rw [h2]; rfl
  refine ⟨⟨out.shape.dropLast.dropLast, fun c => of fun i j => out.get (atLast (atLast c j) i)⟩, ?_, hshape, fun c hc => ?_⟩
  · unfold cholSolveMat
    simp only [← hB', ← hU', h1, bind, Except.bind, pure, Except.pure]
  · rw [at_of_shape (P := [K + 1]) hshape hc]
    ext i j
    show out.get (atLast (atLast c j) i) = cholSolve (U.get fun _ => K) (fun k => B.at c k j) i
    obtain ⟨u, hu, he⟩ := h3 _ (atLast_valid (P := [K + 1, D]) (atLast_valid (P := [K + 1]) hc j.2) i.2)
    rw [he]
    unfold choSolveNat
    rw [atLast_zero, dif_pos i.2]
    have e1 : U'.get u = U.get fun _ => K := by
      show U.get (fun k => u (k + 1)) = _
      apply hget
      intro k hk
      obtain rfl : k = 0 := by omega
      show u 1 = K
      rw [hu 1 (by rw [hUs]; simp), if_neg (fun h => by have := h.2.1; simp at this), hUs]
      rfl
    rw [e1]
    congr 1
    funext l
    unfold vectorAt
    have e : restrict B'.shape (atLast (atLast c j) i) = atLast (atLast (restrict [] c) j) i := by
      rw [hBs, restrict_atLast _ i.2, show ([D] : List Nat) = [] ++ [D] by rfl, restrict_atLast _ j.2]
    rw [e, update_atLast]
    show (if h : (l : Nat) < D ∧ (j : Nat) < D then B.get (restrict [] c) ⟨l, h.1⟩ ⟨j, h.2⟩ else 0) = _
    rw [dif_pos ⟨l.2, j.2⟩, ← hB]
    rfl

/-! ## One plate of the state -/

/-- The state of one plate -/
def PlateBand.plate (S : PlateBand D) (c : Nat → Nat) : BandState D :=
  ⟨fun n => (S.V n).at c, fun n => (S.C n).at c, fun n => (S.x n).at c, S.ldet.at c⟩

/-- The arrays have the plates they were allocated with. -/
structure PlateBand.Shaped (S : PlateBand D) (pV pX : List Nat) : Prop where
  V : ∀ n, (S.V n).shape = pV
  get : ∀ n c c', (∀ k < pV.length, c k = c' k) → (S.V n).get c = (S.V n).get c'
  C : ∀ n, (S.C n).shape = pV
  x : ∀ n, (S.x n).shape = pX
  ldet : S.ldet.shape = pV

theorem update_shape {α : Type} {X : Nat → Arr α} {P : List Nat} (h : ∀ n, (X n).shape = P) (m : Nat) {v : Arr α} (hv : v.shape = P)
    (n : Nat) : (Function.update X m v n).shape = P := by
  by_cases e : n = m
  · subst e; rw [Function.update_self]; exact hv
  · rw [Function.update_of_ne e]; exact h n

theorem update_at {α : Type} (X : Nat → Arr α) (m : Nat) (v : Arr α) (c : Nat → Nat) :
    (fun n => (Function.update X m v n).at c) = Function.update (fun n => (X n).at c) m (v.at c) := by
  funext n
  by_cases e : n = m
  · subst e; rw [Function.update_self, Function.update_self]
  · rw [Function.update_of_ne e, Function.update_of_ne e]

theorem bandForward_eq (A B : Nat → Matrix (Fin D) (Fin D) ℝ) (y : Nat → Fin D → ℝ) (s : BandState D) (n : Nat) :
    bandForward A B y s n = (chol ((0.5 : ℝ) • (A (n + 1) - (B n)ᵀ * cholSolveM (s.V n) (B n) +
        (A (n + 1) - (B n)ᵀ * cholSolveM (s.V n) (B n))ᵀ))).bind fun U =>
      .ok ⟨Function.update s.V (n + 1) U, Function.update s.C n (cholSolveM (s.V n) (B n)),
        Function.update s.x (n + 1) (y (n + 1) - (B n)ᵀ *ᵥ cholSolve (s.V n) (s.x n)), s.ldet + cholLogdet U⟩ := by
  unfold bandForward
  simp only [Function.update_self, Function.update_idem, bind, pure, Except.pure]

theorem ok_of_bind {α β : Type} {x : Except PyErr α} {f : α → Except PyErr β} {t : β} (h : x.bind f = .ok t) : ∃ u, x = .ok u := by
  cases x with
  | ok u => exact ⟨u, rfl⟩
  | error e => cases h

theorem bind_of_ok {α β : Type} {x : Except PyErr α} {f : α → β} {u : α} (h : x = .ok u) :
    ∃ t, (x.bind fun u => .ok (f u)) = .ok t := by
  subst h
  exact ⟨f u, rfl⟩

section steps

variable {pV pX pB : List Nat} {A B : Nat → Arr (Matrix (Fin D) (Fin D) ℝ)} {y : Nat → Arr (Fin D → ℝ)}

theorem at_restrict_self {α : Type} {X : Arr α} {P : List Nat} (h : BroadcastsTo X.shape P) (c : Nat → Nat) :
    X.at (restrict P c) = X.at c := at_restrict h c

theorem shape_to {α : Type} {X : Arr α} {P Q : List Nat} (h : X.shape = P) (hs : BroadcastsTo P Q) : BroadcastsTo X.shape Q := h ▸ hs

/-- Up to the factorisation; `G` are the solutions for the super-diagonal blocks. -/
theorem plateForward_gen (hs : BroadcastsTo pV pX) (hA : ∀ n, BroadcastsTo (A n).shape pV) (hBV : ∀ n, BroadcastsTo (B n).shape pV)
    (hy : ∀ n, BroadcastsTo (y n).shape pX) (S : PlateBand D) (hS : S.Shaped pV pX) (n : Nat)
    {G : (Nat → Nat) → Matrix (Fin D) (Fin D) ℝ}
    (hG : ∃ r, cholSolveMat (S.V n) (B n) = .ok r ∧ r.shape = pV ∧ ∀ c, ValidIn pX c → r.at c = G c) :
    ∃ z cc v, z.shape = pX ∧ cc.shape = pV ∧ v.shape = pV ∧
      (∀ c, ValidIn pX c → z.at c = (y (n + 1)).at c - ((B n).at c)ᵀ *ᵥ cholSolve ((S.V n).at c) ((S.x n).at c)) ∧
      (∀ c, ValidIn pX c → cc.at c = G c) ∧
      (∀ c, ValidIn pX c → v.at c = (0.5 : ℝ) • ((A (n + 1)).at c - ((B n).at c)ᵀ * G c +
        ((A (n + 1)).at c - ((B n).at c)ᵀ * G c)ᵀ)) ∧
      plateForward pV pX A B y S n = (cholPlates v).bind fun u => (fillPlates pV u).bind fun u =>
        (npMap2 (fun a b => a + b) S.ldet (u.map cholLogdet)).bind fun l => (fillPlates S.ldet.shape l).bind fun l =>
          .ok ⟨Function.update S.V (n + 1) u, Function.update S.C n cc, Function.update S.x (n + 1) z, l⟩ := by
  obtain ⟨z1, a1, a2, a3⟩ := cholSolveVec_ok (hS.V n) (hS.get n) (hS.x n) hs
  obtain ⟨z2, b1, b2, b3⟩ := map2_right (fun b v => bᵀ *ᵥ v) (BroadcastsTo.trans' (hBV n) hs) a2
  obtain ⟨z3, d1, d2, d3⟩ := map2_right (fun a b => a - b) (hy (n + 1)) b2
  obtain ⟨z4, e1, e2, e3, -⟩ := fill_ok (shape_to d2 (BroadcastsTo_refl pX))
  obtain ⟨c1, f1, f2, f3⟩ := hG
  obtain ⟨c2, g1, g2, g3, -⟩ := fill_ok (shape_to f2 (BroadcastsTo_refl pV))
  obtain ⟨v1, i1, i2, i3⟩ := map2_right (fun b c => bᵀ * c) (hBV n) g2
  obtain ⟨v2, j1, j2, j3⟩ := map2_right (fun a b => a - b) (hA (n + 1)) i2
  obtain ⟨v3, k1, k2, k3, -⟩ := fill_ok (shape_to j2 (BroadcastsTo_refl pV))
  obtain ⟨v4, l1, l2, l3, -⟩ := fill_ok (v := v3.map fun v => (0.5 : ℝ) • (v + vᵀ)) (shape_to (P := pV) k2 (BroadcastsTo_refl pV))
  have hcc : ∀ c, ValidIn pX c → c2.at c = G c := fun c hc => by rw [g3, f3 c hc]
  refine ⟨z4, c2, v4, e2, g2, l2, fun c hc => ?_, hcc, fun c hc => ?_, ?_⟩
  · rw [e3, d3, b3, a3 c hc]
  · rw [l3, map_at', k3, j3, i3, hcc c hc]
  · unfold plateForward
    simp only [a1, b1, d1, e1, f1, g1, i1, j1, k1, l1, Function.update_self, Function.update_idem, bind, Except.bind, pure, Except.pure]

theorem plateForward_pre (hs : BroadcastsTo pV pX) (hA : ∀ n, BroadcastsTo (A n).shape pV) (hB : ∀ n, (B n).shape = pB)
    (hBV : BroadcastsTo pB pV) (hall : ∀ k, axisLen pV k = 1 ∨ axisLen pB k = axisLen pV k) (hlen : pV.length ≤ pB.length + 1)
    (hy : ∀ n, BroadcastsTo (y n).shape pX) (S : PlateBand D) (hS : S.Shaped pV pX) (n : Nat) :
    ∃ z cc v, z.shape = pX ∧ cc.shape = pV ∧ v.shape = pV ∧
      (∀ c, ValidIn pX c → z.at c = (y (n + 1)).at c - ((B n).at c)ᵀ *ᵥ cholSolve ((S.V n).at c) ((S.x n).at c)) ∧
      (∀ c, ValidIn pX c → cc.at c = cholSolveM ((S.V n).at c) ((B n).at c)) ∧
      (∀ c, ValidIn pX c → v.at c = (0.5 : ℝ) • ((A (n + 1)).at c - ((B n).at c)ᵀ * cholSolveM ((S.V n).at c) ((B n).at c) +
        ((A (n + 1)).at c - ((B n).at c)ᵀ * cholSolveM ((S.V n).at c) ((B n).at c))ᵀ)) ∧
      plateForward pV pX A B y S n = (cholPlates v).bind fun u => (fillPlates pV u).bind fun u =>
        (npMap2 (fun a b => a + b) S.ldet (u.map cholLogdet)).bind fun l => (fillPlates S.ldet.shape l).bind fun l =>
          .ok ⟨Function.update S.V (n + 1) u, Function.update S.C n cc, Function.update S.x (n + 1) z, l⟩ := by
  refine plateForward_gen hs hA (fun n => shape_to (hB n) hBV) hy S hS n ?_
  obtain ⟨c1, f1, f2, f3⟩ := cholSolveMat_ok (hS.V n) (hS.get n) (hB n) hBV hall hlen
  refine ⟨c1, f1, f2, fun c hc => ?_⟩
  have h := f3 (restrict pV c) (restrict_valid hs.2 hc)
  rwa [at_restrict (shape_to f2 (BroadcastsTo_refl pV)), at_restrict (shape_to (hS.V n) (BroadcastsTo_refl pV)),
    at_restrict (shape_to (hB n) hBV)] at h

theorem plateForward_ok (hs : BroadcastsTo pV pX) (hA : ∀ n, BroadcastsTo (A n).shape pV) (hB : ∀ n, (B n).shape = pB)
    (hBV : BroadcastsTo pB pV) (hall : ∀ k, axisLen pV k = 1 ∨ axisLen pB k = axisLen pV k) (hlen : pV.length ≤ pB.length + 1)
    (hy : ∀ n, BroadcastsTo (y n).shape pX) (hext : ∀ c, ValidIn pV c → ∃ c', ValidIn pX c' ∧ restrict pV c' = c)
    (S : PlateBand D) (hS : S.Shaped pV pX) (n : Nat)
    (hok : ∀ c, ValidIn pX c → ∃ t, bandForward (fun k => (A k).at c) (fun k => (B k).at c) (fun k => (y k).at c) (S.plate c) n = .ok t) :
    ∃ S', plateForward pV pX A B y S n = .ok S' ∧ S'.Shaped pV pX ∧ ∀ c, ValidIn pX c →
      bandForward (fun k => (A k).at c) (fun k => (B k).at c) (fun k => (y k).at c) (S.plate c) n = .ok (S'.plate c) := by
  obtain ⟨z, cc, v, z1, c1, v1, z2, c2, v2, he⟩ := plateForward_pre hs hA hB hBV hall hlen hy S hS n
  have hchol : ∀ c, ValidIn pX c → ∃ U, chol (v.at c) = .ok U := fun c hc => by
    obtain ⟨t, ht⟩ := hok c hc
    rw [bandForward_eq] at ht
    rw [v2 c hc]
    exact ok_of_bind ht
  have hvs : BroadcastsTo v.shape pV := shape_to v1 (BroadcastsTo_refl pV)
  obtain ⟨R, r1, r2, r3⟩ := cholPlates_ok v1 (fun c hc => by
    obtain ⟨c', h1, h2⟩ := hext c hc
    obtain ⟨U, hU⟩ := hchol c' h1
    rw [← at_restrict hvs, h2, at_of_shape v1 hc] at hU
    exact ⟨U, hU⟩)
  have hR : ∀ c, ValidIn pX c → chol (v.at c) = .ok (R.at c) := fun c hc => by
    have h := r3 _ (restrict_valid hs.2 hc)
    rw [← at_of_shape v1 (restrict_valid hs.2 hc), ← at_of_shape r2 (restrict_valid hs.2 hc), at_restrict hvs,
      at_restrict (shape_to r2 (BroadcastsTo_refl pV))] at h
    exact h
  obtain ⟨u, u1, u2, u3, u4⟩ := fill_ok (shape_to r2 (BroadcastsTo_refl pV))
  obtain ⟨l, l1, l2, l3⟩ := map2_left (fun a b => a + b) hS.ldet (Y := u.map cholLogdet) (shape_to (P := pV) u2 (BroadcastsTo_refl pV))
  obtain ⟨l', m1, m2, m3, -⟩ := fill_ok (P := S.ldet.shape) (v := l) (by rw [hS.ldet, l2]; exact BroadcastsTo_refl pV)
  refine ⟨⟨Function.update S.V (n + 1) u, Function.update S.C n cc, Function.update S.x (n + 1) z, l'⟩, ?_, ?_, fun c hc => ?_⟩
  · rw [he, r1]
    simp only [Except.bind, u1, l1, m1]
  · refine ⟨update_shape hS.V _ u2, fun m c c' h => ?_, update_shape hS.C _ c1, update_shape hS.x _ z1, m2.trans hS.ldet⟩
    by_cases e : m = n + 1
    · subst e; simp only [Function.update_self]; exact u4 c c' h
    · simp only [Function.update_of_ne e]; exact hS.get m c c' h
  · rw [bandForward_eq]
    have h := hR c hc
    rw [v2 c hc] at h
    refine (congrArg (fun t => Except.bind t _) h).trans ?_
    show Except.ok _ = Except.ok _
    unfold PlateBand.plate
    simp only [update_at]
    rw [c2 c hc, z2 c hc, u3, m3, l3, map_at', u3]

theorem plateForward_error (hs : BroadcastsTo pV pX) (hA : ∀ n, BroadcastsTo (A n).shape pV) (hB : ∀ n, (B n).shape = pB)
    (hBV : BroadcastsTo pB pV) (hall : ∀ k, axisLen pV k = 1 ∨ axisLen pB k = axisLen pV k) (hlen : pV.length ≤ pB.length + 1)
    (hy : ∀ n, BroadcastsTo (y n).shape pX) (S : PlateBand D) (hS : S.Shaped pV pX) (n : Nat) {c : Nat → Nat} (hc : ValidIn pX c)
    (he : ∀ t, bandForward (fun k => (A k).at c) (fun k => (B k).at c) (fun k => (y k).at c) (S.plate c) n ≠ .ok t) :
    plateForward pV pX A B y S n = .error .exception := by
  obtain ⟨z, cc, v, z1, c1, v1, z2, c2, v2, h⟩ := plateForward_pre hs hA hB hBV hall hlen hy S hS n
  rw [h, cholPlates_error v1 (restrict_valid hs.2 hc) fun U hU => ?_]
  · rfl
  · rw [← at_of_shape v1 (restrict_valid hs.2 hc), at_restrict (shape_to v1 (BroadcastsTo_refl pV)), v2 c hc] at hU
    obtain ⟨t, ht⟩ := bind_of_ok (f := fun U => (⟨Function.update (S.plate c).V (n + 1) U,
      Function.update (S.plate c).C n (cholSolveM ((S.plate c).V n) ((B n).at c)), Function.update (S.plate c).x (n + 1)
        ((y (n + 1)).at c - ((B n).at c)ᵀ *ᵥ cholSolve ((S.plate c).V n) ((S.plate c).x n)),
      (S.plate c).ldet + cholLogdet U⟩ : BandState D)) hU
    refine he t ?_
    rw [bandForward_eq]
    exact ht

theorem bandBackward_eq (B : Nat → Matrix (Fin D) (Fin D) ℝ) (s : BandState D) (n : Nat) :
    bandBackward B s n = ⟨Function.update s.V n ((0.5 : ℝ) • (cholInv (s.V n) + s.C n * (s.V (n + 1) * (s.C n)ᵀ) +
        (cholInv (s.V n) + s.C n * (s.V (n + 1) * (s.C n)ᵀ))ᵀ)),
      Function.update s.C n (-(s.C n * s.V (n + 1))),
      Function.update s.x n (cholSolve (s.V n) (s.x n - B n *ᵥ s.x (n + 1))), s.ldet⟩ := by
  unfold bandBackward
  simp only [Function.update_self, Function.update_idem, Function.update_of_ne (show n + 1 ≠ n by omega)]

theorem cholInv_ok {U : Arr (Matrix (Fin D) (Fin D) ℝ)} (hU : U.shape = pV) (hs : BroadcastsTo pV pX) :
    (cholInvPlates cholSolveM U 1).shape = pV ∧
    ∀ c, ValidIn pX c → (cholInvPlates cholSolveM U 1).at c = cholInv (U.at c) := by
  obtain ⟨h1, h2⟩ := C49_chol_inv cholSolveM U 1
  refine ⟨h1.trans hU, fun c hc => ?_⟩
  have hv := restrict_valid hs.2 hc
  rw [← at_restrict (shape_to (h1.trans hU) (BroadcastsTo_refl pV)), at_of_shape (h1.trans hU) hv, h2 _ (hU ▸ hv),
    ← at_of_shape hU hv, at_restrict (shape_to hU (BroadcastsTo_refl pV))]
  rfl

theorem plateBackward_ok (hs : BroadcastsTo pV pX) (hB : ∀ n, BroadcastsTo (B n).shape pV) (S : PlateBand D)
    (hS : S.Shaped pV pX) (n : Nat) :
    ∃ S', plateBackward pV pX B S n = .ok S' ∧ S'.Shaped pV pX ∧ ∀ c, ValidIn pX c →
      S'.plate c = bandBackward (fun k => (B k).at c) (S.plate c) n := by
  have rV : ∀ n, BroadcastsTo (S.V n).shape pV := fun n => shape_to (hS.V n) (BroadcastsTo_refl pV)
  have rC : ∀ n, BroadcastsTo (S.C n).shape pV := fun n => shape_to (hS.C n) (BroadcastsTo_refl pV)
  obtain ⟨i1, i2⟩ := cholInv_ok (hS.V n) hs
  obtain ⟨z1, a1, a2, a3⟩ := map2_right (fun b v => b *ᵥ v) (BroadcastsTo.trans' (hB n) hs) (hS.x (n + 1))
  obtain ⟨z2, b1, b2, b3⟩ := map2_right (fun a b => a - b) (shape_to (hS.x n) (BroadcastsTo_refl pX)) a2
  obtain ⟨z3, d1, d2, d3⟩ := cholSolveVec_ok (hS.V n) (hS.get n) b2 hs
  obtain ⟨z4, e1, e2, e3, -⟩ := fill_ok (shape_to d2 (BroadcastsTo_refl pX))
  obtain ⟨w1, f1, f2, f3⟩ := map2_right (fun v c => v * cᵀ) (rV (n + 1)) (hS.C n)
  obtain ⟨w2, g1, g2, g3⟩ := map2_right (fun c w => c * w) (rC n) f2
  obtain ⟨w3, h1, h2, h3⟩ := map2_right (fun a b => a + b) (X := cholInvPlates cholSolveM (S.V n) 1)
    (shape_to i1 (BroadcastsTo_refl pV)) g2
  obtain ⟨w4, j1, j2, j3, -⟩ := fill_ok (shape_to h2 (BroadcastsTo_refl pV))
  obtain ⟨c1, k1, k2, k3⟩ := map2_right (fun c v => -(c * v)) (rC n) (hS.V (n + 1))
  obtain ⟨c2, l1, l2, l3, -⟩ := fill_ok (shape_to k2 (BroadcastsTo_refl pV))
  obtain ⟨w5, m1, m2, m3, m4⟩ := fill_ok (v := w4.map fun v => (0.5 : ℝ) • (v + vᵀ)) (shape_to (P := pV) j2 (BroadcastsTo_refl pV))
  refine ⟨⟨Function.update S.V n w5, Function.update S.C n c2, Function.update S.x n z4, S.ldet⟩, ?_, ?_, fun c hc => ?_⟩
  · unfold plateBackward
    simp only [a1, b1, d1, e1, f1, g1, h1, j1, k1, l1, m1, Function.update_self, Function.update_idem,
      Function.update_of_ne (show n + 1 ≠ n by omega), bind, Except.bind, pure, Except.pure]
  · refine ⟨update_shape hS.V _ m2, fun m c c' h => ?_, update_shape hS.C _ l2, update_shape hS.x _ e2, hS.ldet⟩
    by_cases e : m = n
    · subst e; simp only [Function.update_self]; exact m4 c c' h
    · simp only [Function.update_of_ne e]; exact hS.get m c c' h
  · rw [bandBackward_eq]
    unfold PlateBand.plate
    simp only [update_at]
    rw [m3, map_at', j3, h3, i2 c hc, g3, f3, l3, k3, e3, d3 c hc, b3, a3]

end steps

end Verif
